import Verif.Props.LBFGSRun

/-!
# The stopping rules of L-BFGS (C105)
-/

namespace OpenML

open SGD (LossFn)
open Spec LBFGS

set_option linter.unusedSectionVars false

section
variable {α : Type} [Field α] [LinearOrder α] [IsStrictOrderedRing α]

/-- The loss changed by less than the share `delta`, relative to its new value or to one. -/
def Spec.SmallChange (delta before after : α) : Prop := |before - after| < delta * max 1 |after|

namespace LBFGS

theorem update_fields {p : LBFGS.Params α} {st st' : State α} {r : Found α} {pfx : List α} (h : update p st r pfx = .ok st') :
    st'.x = r.x ∧ st'.fx = r.fx ∧ st'.g = r.g ∧ st'.k = st.k + 1 ∧ st'.pfx = pfx := by
  unfold update at h
  obtain ⟨_, -, h⟩ := Res.bind_eq_ok.mp h
  obtain ⟨_, -, h⟩ := Res.bind_eq_ok.mp h
  obtain ⟨_, -, h⟩ := Res.bind_eq_ok.mp h
  obtain ⟨_, -, h⟩ := Res.bind_eq_ok.mp h
  obtain ⟨_, -, h⟩ := Res.bind_eq_ok.mp h
  dsimp only at h
  obtain ⟨_, -, h⟩ := Res.bind_eq_ok.mp h
  cases h
  exact ⟨rfl, rfl, rfl, rfl, rfl⟩

theorem smallChange_iff (delta v fx : α) : |v - fx| / max |fx| 1 < delta ↔ SmallChange delta v fx := by
  unfold SmallChange
  rw [div_lt_iff₀ (lt_of_lt_of_le one_pos (le_max_right _ _)), max_comm]

/-- Which losses the ring buffer holds before iteration `i + 1`. -/
structure PastInv (p : LBFGS.Params α) (σ : Nat → State α) (i : Nat) : Prop where
  hk : (σ i).k = i + 1
  hlen : (σ i).pfx.length = p.past
  hval : ∀ m, m = 0 ∨ p.past ≤ m → m ≤ i → i < m + p.past → (σ i).pfx[m % p.past]? = some (σ m).fx

theorem past_inv {sqrt : α → α} {policy : Policy} {p : LBFGS.Params α} (hp : 0 < p.past) {loss : LossFn α (List α)} {X : DMat α}
    {y : List α} {σ : Nat → State α} {K : Nat} (h : IsIterates sqrt policy p loss X y σ K) {junk : Nat → α} {x0 g0 : List α}
    {f0 step : α} (h0 : σ 0 = initial p junk x0 g0 f0 step) (i : Nat) (hi : i ≤ K) : PastInv p σ i := by
  induction i with
  | zero =>
    refine ⟨by rw [h0]; rfl, by rw [h0]; simp only [initial, List.length_cons, List.length_map, List.length_range]; omega, ?_⟩
    intro m hm hmi _
    obtain rfl : m = 0 := by omega
    rw [Nat.zero_mod, h0]
    rfl
  | succ i ih =>
    have hI := ih (by omega)
    obtain ⟨r, pfx, hs, -, ht, -, hu⟩ := iteration_inr (h i (by omega))
    obtain ⟨-, hfx, -, hk, hpf⟩ := update_fields hu
    rw [pastTest, hI.hk] at ht
    refine ⟨by rw [hk, hI.hk], ?_, fun m hm hmi him => ?_⟩
    · rw [hpf]
      split at ht
      · rw [if_neg (by omega)] at ht
        obtain ⟨v, -, ht⟩ := Res.bind_eq_ok.mp ht
        split at ht
        · cases ht
        · cases ht
          rw [List.length_set, hI.hlen]
      · cases ht
        exact hI.hlen
    · rw [hpf]
      split at ht
      · rename_i hle
        rw [if_neg (by omega)] at ht
        obtain ⟨v, -, ht⟩ := Res.bind_eq_ok.mp ht
        split at ht
        · cases ht
        · cases ht
          rcases Nat.lt_or_ge i m with hlt | hge
          · obtain rfl : m = i + 1 := by omega
            rw [List.getElem?_set_self (by rw [hI.hlen]; exact Nat.mod_lt _ hp), hfx]
          · rw [List.getElem?_set_ne, hI.hval m hm hge (by omega)]
            intro heq
            have hd : p.past ∣ i + 1 - m := (Nat.modEq_iff_dvd' (by omega)).mp heq.symm
            exact absurd (Nat.le_of_dvd (by omega) hd) (by omega)
      · rename_i hle
        cases ht
        obtain rfl : m = 0 := by omega
        exact hI.hval 0 (Or.inl rfl) (by omega) (by omega)

end LBFGS

/-- C105: the run goes on from one iterate to the next only if the gradient is still large, the iteration limit is not reached, and
the loss has changed by at least the share `delta` compared with `past` iterations before (once enough losses are recorded). -/
theorem C105_goes_on (sqrt : α → α) (policy : Policy) (p : LBFGS.Params α) (hp : 0 < p.past) (loss : LossFn α (List α)) (X : DMat α)
    (y : List α) (σ : Nat → State α) (K : Nat) (h : IsIterates sqrt policy p loss X y σ K) (junk : Nat → α) (x0 g0 : List α)
    (f0 step : α) (h0 : σ 0 = initial p junk x0 g0 f0 step) (i : Nat) (hi : i < K) :
    p.tol * max 1 (len sqrt (σ (i + 1)).x) < len sqrt (σ (i + 1)).g ∧ (p.maxIter ≠ 0 → i + 1 < p.maxIter) ∧
      (i + 1 = p.past ∨ 2 * p.past ≤ i + 1 → ¬ SmallChange p.delta (σ (i + 1 - p.past)).fx (σ (i + 1)).fx) := by
  have hI := past_inv hp h h0 i (by omega)
  obtain ⟨r, pfx, hs, hc, ht, hm, hu⟩ := iteration_inr (h i hi)
  obtain ⟨hx, hfx, hg, -, -⟩ := update_fields hu
  rw [hI.hk] at hm ht
  refine ⟨?_, by omega, fun hcase => ?_⟩
  · rw [hx, hg]
    have hc' : ¬ converged sqrt p.tol r.x r.g = true := by simp [hc]
    rw [converged_iff] at hc'
    exact not_le.mp hc'
  · have hmod : (i + 1) % p.past = (i + 1 - p.past) % p.past := Nat.mod_eq_sub_mod (by omega)
    have hv := hI.hval (i + 1 - p.past) (by omega) (by omega) (by omega)
    rw [pastTest, if_pos (by omega), if_neg (by omega), hmod] at ht
    obtain ⟨v, hv', ht⟩ := Res.bind_eq_ok.mp ht
    have hvv : v = (σ (i + 1 - p.past)).fx := by
      unfold readAt at hv'
      rw [hv] at hv'
      cases hv'
      rfl
    split at ht
    · cases ht
    · rename_i hn
      rw [smallChange_iff, hvv, ← hfx] at hn
      exact hn

/-- C105: if the run ends after iterate `K` with the weights `x`, then the line search failed (and `x` is the last iterate), or the
gradient at `x` is small, or the iteration limit is reached, or the loss at `x` is close to the loss `past` iterations before; the
last reason is excluded as long as fewer than `past` iterations were done. -/
theorem C105_ends (sqrt : α → α) (policy : Policy) (p : LBFGS.Params α) (hp : 0 < p.past) (loss : LossFn α (List α)) (X : DMat α)
    (y : List α) (σ : Nat → State α) (K : Nat) (h : IsIterates sqrt policy p loss X y σ K) (junk : Nat → α) (x0 g0 : List α)
    (f0 step : α) (h0 : σ 0 = initial p junk x0 g0 f0 step) (x : List α)
    (hend : iteration sqrt policy p loss X y (σ K) = .ok (.inl x)) :
    (x = (σ K).x ∧ search policy p.search loss X y (σ K).fx (σ K).g (σ K).d (σ K).step (σ K).x = .ok none) ∨
    ∃ f g, loss.evaluate X y x = .ok f ∧ loss.gradient X y x = .ok g ∧
      (len sqrt g ≤ p.tol * max 1 (len sqrt x) ∨ (p.maxIter ≠ 0 ∧ p.maxIter ≤ K + 1) ∨
        (p.past ≤ K + 1 ∧ (K + 1 = p.past ∨ 2 * p.past ≤ K + 1 → SmallChange p.delta (σ (K + 1 - p.past)).fx f))) := by
  have hI := past_inv hp h h0 K (le_refl _)
  unfold iteration at hend
  obtain ⟨ls, hls, hend⟩ := Res.bind_eq_ok.mp hend
  cases ls with
  | none =>
    cases hend
    exact Or.inl ⟨rfl, hls⟩
  | some r =>
    have hev : loss.evaluate X y r.x = .ok r.fx ∧ loss.gradient X y r.x = .ok r.g := by
      unfold search at hls
      split at hls
      · cases hls
      · obtain ⟨m0, hm0, hls⟩ := Res.bind_eq_ok.mp hls
        split at hls
        · cases hls
        · rename_i hm
          obtain ⟨pre, e, -, -, -, -, -, h3, -, -, -, h2⟩ := searchLoop_run _ _ _ _ _ _ _ (not_lt.mp hm) _ _ _ _ _ _ _ _ hls
          exact ⟨h2, h3⟩
    dsimp only at hend
    split at hend
    · rename_i hc
      cases hend
      rw [converged_iff] at hc
      exact Or.inr ⟨_, _, hev.1, hev.2, Or.inl hc⟩
    · obtain ⟨t, ht, hend⟩ := Res.bind_eq_ok.mp hend
      rw [hI.hk] at ht hend
      cases t with
      | none =>
        cases hend
        refine Or.inr ⟨_, _, hev.1, hev.2, Or.inr (Or.inr ?_)⟩
        unfold pastTest at ht
        split at ht
        · rename_i hle
          refine ⟨hle, fun hcase => ?_⟩
          have hmod : (K + 1) % p.past = (K + 1 - p.past) % p.past := Nat.mod_eq_sub_mod (by omega)
          have hv := hI.hval (K + 1 - p.past) (by omega) (by omega) (by omega)
          rw [if_neg (by omega), hmod] at ht
          obtain ⟨v, hv', ht⟩ := Res.bind_eq_ok.mp ht
          have hvv : v = (σ (K + 1 - p.past)).fx := by
            unfold readAt at hv'
            rw [hv] at hv'
            cases hv'
            rfl
          split at ht
          · rename_i hs
            rw [smallChange_iff, hvv] at hs
            exact hs
          · cases ht
        · cases ht
      | some pfx =>
        dsimp only at hend
        split at hend
        · rename_i hm
          cases hend
          exact Or.inr ⟨_, _, hev.1, hev.2, Or.inr (Or.inl ⟨hm.1, by omega⟩)⟩
        · obtain ⟨st'', -, hend⟩ := Res.bind_eq_ok.mp hend
          cases hend

end

/-- Example for `C105_goes_on`: the run of the example beside C55. -/
example : ¬ SmallChange bowlParams.delta (bowlRun 0).fx (bowlRun 1).fx :=
  (C105_goes_on id .backtracking bowlParams (by decide) bowlLoss ⟨2, []⟩ [] bowlRun 3 (by unfold IsIterates; decide +kernel)
    (fun _ => 0) [3, 1] [108, 2] 82 (1 / 100) rfl 0 (by decide)).2.2 (Or.inl rfl)

/-- Example for `C105_ends`: with at most one iteration the same run ends with other weights than the initial ones. -/
example : ∃ x, iteration id .backtracking { bowlParams with maxIter := 1 } bowlLoss ⟨2, []⟩ [] (bowlRun 0) = .ok (.inl x) ∧
    x ≠ (bowlRun 0).x := by
  refine ⟨[48 / 25, 49 / 50], ?_⟩
  decide +kernel

end OpenML
