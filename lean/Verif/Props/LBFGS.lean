import Verif.Lemmas.LBFGS
import Verif.Props.LineSearch

/-!
# L-BFGS (C54, C55, C83)
-/

namespace OpenML

open SGD Spec LBFGS Matrix

set_option linter.unusedSectionVars false

section
variable {α : Type} [Field α] [LinearOrder α] [IsStrictOrderedRing α]

/-- `σ 0, …, σ K` are the states at the beginning of the first iterations. -/
def Spec.IsIterates (sqrt : α → α) (policy : Policy) (p : LBFGS.Params α) (loss : LossFn α (List α)) (X : DMat α) (y : List α)
    (σ : Nat → State α) (K : Nat) : Prop :=
  ∀ i < K, iteration sqrt policy p loss X y (σ i) = .ok (.inr (σ (i + 1)))

namespace LBFGS

theorem iteration_inr {sqrt : α → α} {policy : Policy} {p : LBFGS.Params α} {loss : LossFn α (List α)} {X : DMat α} {y : List α}
    {st st' : State α} (h : iteration sqrt policy p loss X y st = .ok (.inr st')) :
    ∃ r pfx, search policy p.search loss X y st.fx st.g st.d st.step st.x = .ok (some r) ∧ converged sqrt p.tol r.x r.g = false ∧
      pastTest p st.k r.fx st.pfx = .ok (some pfx) ∧ ¬ (p.maxIter ≠ 0 ∧ p.maxIter < st.k + 1) ∧ update p st r pfx = .ok st' := by
  unfold iteration at h
  obtain ⟨ls, hls, h⟩ := Res.bind_eq_ok.mp h
  cases ls with
  | none => cases h
  | some r =>
    dsimp only at h
    split at h
    · cases h
    · rename_i hc
      obtain ⟨t, ht, h⟩ := Res.bind_eq_ok.mp h
      cases t with
      | none => cases h
      | some pfx =>
        dsimp only at h
        split at h
        · cases h
        · rename_i hm
          obtain ⟨st'', hu, h⟩ := Res.bind_eq_ok.mp h
          cases h
          exact ⟨r, pfx, hls, by simpa using hc, ht, hm, hu⟩

theorem search_lengths {policy : Policy} {p : SearchParams α} {loss : LossFn α (List α)} {X : DMat α} {y : List α} {fx : α}
    {g d : List α} {step : α} {xp : List α} {r : Found α} (h : search policy p loss X y fx g d step xp = .ok (some r)) :
    d.length = g.length ∧ xp.length = d.length ∧ r.x.length = xp.length := by
  unfold search at h
  split at h
  · cases h
  · obtain ⟨m0, hm0, h⟩ := Res.bind_eq_ok.mp h
    obtain ⟨hl, rfl⟩ := dot_eq_ok.mp hm0
    split at h
    · cases h
    · rename_i hm
      rw [gt_iff_lt, not_lt] at hm
      obtain ⟨pre, e, -, -, -, -, -, -, -, h5, h6, -⟩ := searchLoop_run _ _ _ _ _ _ _ hm _ _ _ _ _ _ _ _ h
      refine ⟨hl, h5, ?_⟩
      rw [h6, List.length_zipWith, h5, min_self]

/-- The correction pair between the states `N` and `N + 1`. -/
def pairOf (n : Nat) (σ : Nat → State α) (N : Nat) : (Fin n → α) × (Fin n → α) :=
  (vec n (σ (N + 1)).x - vec n (σ N).x, vec n (σ (N + 1)).g - vec n (σ N).g)

/-- What is known about the state with number `i`. -/
structure Inv (n : Nat) (p : LBFGS.Params α) (σ : Nat → State α) (i : Nat) : Prop where
  k : (σ i).k = i + 1
  hx : (σ i).x.length = n
  hg : (σ i).g.length = n
  hend : (σ i).end' = i % p.memSize
  hmem : (σ i).mem.length = p.memSize
  hal : (σ i).al.length = p.memSize
  slots : ∀ N < i, i ≤ N + p.memSize → (σ i).mem[N % p.memSize]? =
    some (some ⟨List.ofFn (pairOf n σ N).1, List.ofFn (pairOf n σ N).2, (pairOf n σ N).2 ⬝ᵥ (pairOf n σ N).1⟩)
  ne : ∀ N < i, (pairOf n σ N).1 ⬝ᵥ (pairOf n σ N).2 ≠ 0

theorem update_inv {n : Nat} {p : LBFGS.Params α} {σ : Nat → State α} {i : Nat} (hI : Inv n p σ i) {r : Found α} {pfx : List α}
    (hrx : r.x.length = n) (h : update p (σ i) r pfx = .ok (σ (i + 1))) :
    Inv n p σ (i + 1) ∧ (pairOf n σ i).2 ⬝ᵥ (pairOf n σ i).2 ≠ 0 ∧ 0 < p.memSize ∧ (σ (i + 1)).x = r.x ∧ (σ (i + 1)).fx = r.fx ∧
    (σ (i + 1)).g = r.g ∧ (σ (i + 1)).step = 1 ∧ (σ (i + 1)).pfx = pfx ∧
    (σ (i + 1)).d = List.ofFn (-(bfgsList ((pairOf n σ i).2 ⬝ᵥ (pairOf n σ i).1 / ((pairOf n σ i).2 ⬝ᵥ (pairOf n σ i).2))
      (recent (pairOf n σ) (i + 1) (min p.memSize (i + 1))) *ᵥ vec n (σ (i + 1)).g)) := by
  unfold update at h
  obtain ⟨s, hs, h⟩ := Res.bind_eq_ok.mp h
  obtain ⟨yv, hyv, h⟩ := Res.bind_eq_ok.mp h
  obtain ⟨ys, hys, h⟩ := Res.bind_eq_ok.mp h
  obtain ⟨yy, hyy, h⟩ := Res.bind_eq_ok.mp h
  obtain ⟨mem, hmem, h⟩ := Res.bind_eq_ok.mp h
  dsimp only at h
  obtain ⟨da, hda, h⟩ := Res.bind_eq_ok.mp h
  have hst := Res.ok.inj h
  have hrg : r.g.length = n := (subV_eq_ok.mp hyv).1.trans hI.hg
  have ex : (σ (i + 1)).x = r.x := by rw [← hst]
  have eg : (σ (i + 1)).g = r.g := by rw [← hst]
  have es : s = List.ofFn (pairOf n σ i).1 := by
    rw [← ofFn_vec hrx, ← ofFn_vec hI.hx, subV_ofFn] at hs
    rw [pairOf, ex]
    exact (Res.ok.inj hs).symm
  have ey : yv = List.ofFn (pairOf n σ i).2 := by
    rw [← ofFn_vec hrg, ← ofFn_vec hI.hg, subV_ofFn] at hyv
    rw [pairOf, eg]
    exact (Res.ok.inj hyv).symm
  subst es ey
  rw [dot_ofFn] at hys hyy
  obtain rfl := Res.ok.inj hys
  obtain rfl := Res.ok.inj hyy
  obtain ⟨hlt, rfl⟩ := writeMem_eq_ok.mp hmem
  rw [hI.hmem, hI.hend] at hlt
  have hm : 0 < p.memSize := Nat.pos_of_ne_zero fun h0 => by rw [h0] at hlt; omega
  have hb : (if p.memSize ≤ (σ i).k then p.memSize else (σ i).k) = min p.memSize (i + 1) := by
    rw [hI.k, Nat.min_def]
  have he : ((σ i).end' + 1) % p.memSize = (i + 1) % p.memSize := by rw [hI.hend, Nat.mod_add_mod]
  rw [hb, he] at hda
  have hset : ∀ N < i + 1, i + 1 ≤ N + p.memSize →
      ((σ i).mem.set (σ i).end' (some ⟨List.ofFn (pairOf n σ i).1, List.ofFn (pairOf n σ i).2,
        (pairOf n σ i).2 ⬝ᵥ (pairOf n σ i).1⟩))[N % p.memSize]? =
      some (some ⟨List.ofFn (pairOf n σ N).1, List.ofFn (pairOf n σ N).2, (pairOf n σ N).2 ⬝ᵥ (pairOf n σ N).1⟩) := by
    intro N hN hN'
    rw [hI.hend]
    rcases Nat.lt_succ_iff_lt_or_eq.mp hN with h | rfl
    · rw [List.getElem?_set_ne (ring_ne _ N i h (by omega)).symm]
      exact hI.slots N h (by omega)
    · rw [List.getElem?_set_self (by rw [hI.hmem]; exact hlt)]
  -- the newest pair has been divided by
  have hne : (pairOf n σ i).1 ⬝ᵥ (pairOf n σ i).2 ≠ 0 := by
    obtain ⟨b, hb'⟩ : ∃ b, min p.memSize (i + 1) = b + 1 := ⟨min p.memSize (i + 1) - 1, by omega⟩
    unfold direction at hda
    obtain ⟨r1, hr1, -⟩ := Res.bind_eq_ok.mp hda
    rw [hb', loop1, if_neg hm.ne'] at hr1
    dsimp only at hr1
    rw [ring_pred _ i hm, readMem_eq_ok.mpr (hset i (by omega) (by omega)), Res.bind_ok] at hr1
    obtain ⟨sd, -, hr1⟩ := Res.bind_eq_ok.mp hr1
    obtain ⟨a, ha, -⟩ := Res.bind_eq_ok.mp hr1
    rw [dotProduct_comm]
    exact (quot_eq_ok.mp ha).1
  have hnes : ∀ N < i + 1, (pairOf n σ N).1 ⬝ᵥ (pairOf n σ N).2 ≠ 0 := by
    intro N hN
    rcases Nat.lt_succ_iff_lt_or_eq.mp hN with h | rfl
    · exact hI.ne N h
    · exact hne
  have hyy : (pairOf n σ i).2 ⬝ᵥ (pairOf n σ i).2 ≠ 0 := by
    unfold direction at hda
    obtain ⟨r1, -, hda⟩ := Res.bind_eq_ok.mp hda
    obtain ⟨c, hc, -⟩ := Res.bind_eq_ok.mp hda
    exact (quot_eq_ok.mp hc).1
  obtain ⟨al', hal', hdir⟩ := direction_eq p.memSize hm _ (pairOf n σ) (min p.memSize (i + 1)) (i + 1) (by omega) (by omega)
    (fun N hN1 hN2 => ⟨hset N hN2 (by omega), hnes N hN2⟩) (vec n r.g) (σ i).al hI.hal ((pairOf n σ i).2 ⬝ᵥ (pairOf n σ i).1) _ hyy
  rw [ofFn_vec hrg] at hdir
  rw [hdir] at hda
  obtain rfl := Res.ok.inj hda
  refine ⟨⟨?_, ?_, ?_, ?_, ?_, ?_, ?_, hnes⟩, hyy, hm, ex, ?_, eg, ?_, ?_, ?_⟩
  · rw [← hst]
    dsimp only
    rw [hI.k]
  · rw [ex, hrx]
  · rw [eg, hrg]
  · rw [← hst]
    exact he
  · rw [← hst]
    dsimp only
    rw [List.length_set, hI.hmem]
  · rw [← hst]
    exact hal'
  · intro N hN1 hN2
    rw [← hset N hN1 hN2, ← hst]
  · rw [← hst]
  · rw [← hst]
  · rw [← hst]
  · rw [eg, ← hst]

theorem inv_of_run {sqrt : α → α} {policy : Policy} {p : LBFGS.Params α} {loss : LossFn α (List α)} {X : DMat α} {y : List α}
    {σ : Nat → State α} {K : Nat} (h : IsIterates sqrt policy p loss X y σ K) {junk : Nat → α} {x0 g0 : List α} {f0 step : α}
    (h0 : σ 0 = initial p junk x0 g0 f0 step) (hg0 : g0.length = x0.length) (i : Nat) (hi : i ≤ K) : Inv x0.length p σ i := by
  induction i with
  | zero =>
    refine ⟨by rw [h0]; rfl, by rw [h0]; rfl, by rw [h0]; exact hg0, by rw [h0]; simp [initial], by rw [h0]; simp [initial],
      by rw [h0]; simp [initial], fun N hN => absurd hN (by omega), fun N hN => absurd hN (by omega)⟩
  | succ i ih =>
    have hI := ih (by omega)
    obtain ⟨r, pfx, hs, -, -, -, hu⟩ := iteration_inr (h i (by omega))
    obtain ⟨-, -, hl⟩ := search_lengths hs
    exact (update_inv hI (hl.trans hI.hx) hu).1

end LBFGS

/-- C55: the direction used after `i` iterations is minus the product of the gradient with the BFGS matrix made of the
`min(i, mem_size)` most recent correction pairs (differences of successive points and gradients), the most recent one outermost,
from the multiple `ys / yy` of the unit matrix that belongs to the most recent pair. In particular no slot of the memory is read
that does not hold one of these pairs. -/
theorem C55_direction (sqrt : α → α) (policy : Policy) (p : LBFGS.Params α) (loss : LossFn α (List α)) (X : DMat α) (y : List α)
    (σ : Nat → State α) (K : Nat) (h : IsIterates sqrt policy p loss X y σ K) (junk : Nat → α) (x0 g0 : List α) (f0 step : α)
    (h0 : σ 0 = initial p junk x0 g0 f0 step) (i : Nat) (hi : i < K) :
    let n := x0.length
    let P := fun N => (vec n (σ (N + 1)).x - vec n (σ N).x, vec n (σ (N + 1)).g - vec n (σ N).g)
    (σ (i + 1)).d = List.ofFn (-(bfgsList ((P i).2 ⬝ᵥ (P i).1 / ((P i).2 ⬝ᵥ (P i).2))
      ((List.range (min p.memSize (i + 1))).map fun j => P (i - j)) *ᵥ vec n (σ (i + 1)).g)) ∧
    (σ (i + 1)).step = 1 := by
  have hg0 : g0.length = x0.length := by
    obtain ⟨r, pfx, hs, -⟩ := iteration_inr (h 0 (by omega))
    rw [h0] at hs
    obtain ⟨h1, h2, -⟩ := search_lengths hs
    exact (h2.trans h1).symm
  have hI := inv_of_run h h0 hg0 i hi.le
  obtain ⟨r, pfx, hs, -, -, -, hu⟩ := iteration_inr (h i hi)
  obtain ⟨-, -, hl⟩ := search_lengths hs
  have := update_inv hI (hl.trans hI.hx) hu
  exact ⟨this.2.2.2.2.2.2.2.2, this.2.2.2.2.2.2.1⟩

/-- The BFGS update satisfies the secant equation. -/
theorem bfgs_secant {n : Nat} (H : Matrix (Fin n) (Fin n) α) (s y : Fin n → α) (h : s ⬝ᵥ y ≠ 0) : bfgs H s y *ᵥ y = s := by
  rw [bfgs_mulVec, div_self h, one_smul, sub_self, mulVec_zero, dotProduct_zero, zero_div, sub_zero, one_smul, zero_add]

/-- C55: the matrix of `C55_direction` satisfies the secant equation for the most recent pair: it maps the difference of the last two
gradients to the difference of the last two points. -/
theorem C55_secant (sqrt : α → α) (policy : Policy) (p : LBFGS.Params α) (loss : LossFn α (List α)) (X : DMat α) (y : List α)
    (σ : Nat → State α) (K : Nat) (h : IsIterates sqrt policy p loss X y σ K) (junk : Nat → α) (x0 g0 : List α) (f0 step : α)
    (h0 : σ 0 = initial p junk x0 g0 f0 step) (i : Nat) (hi : i < K) :
    let n := x0.length
    let P := fun N => (vec n (σ (N + 1)).x - vec n (σ N).x, vec n (σ (N + 1)).g - vec n (σ N).g)
    0 < p.memSize ∧ ∀ c, bfgsList c ((List.range (min p.memSize (i + 1))).map fun j => P (i - j)) *ᵥ (P i).2 = (P i).1 := by
  have hg0 : g0.length = x0.length := by
    obtain ⟨r, pfx, hs, -⟩ := iteration_inr (h 0 (by omega))
    rw [h0] at hs
    obtain ⟨h1, h2, -⟩ := search_lengths hs
    exact (h2.trans h1).symm
  have hI := inv_of_run h h0 hg0 i hi.le
  obtain ⟨r, pfx, hs, -, -, -, hu⟩ := iteration_inr (h i hi)
  obtain ⟨-, -, hl⟩ := search_lengths hs
  have hu := update_inv hI (hl.trans hI.hx) hu
  refine ⟨hu.2.2.1, fun c => ?_⟩
  obtain ⟨b, hb⟩ : ∃ b, min p.memSize (i + 1) = b + 1 := ⟨min p.memSize (i + 1) - 1, by have := hu.2.2.1; omega⟩
  have : ((List.range (b + 1)).map fun j => pairOf x0.length σ (i - j)) = recent (pairOf x0.length σ) (i + 1) (b + 1) := rfl
  rw [hb]
  change bfgsList c ((List.range (b + 1)).map fun j => pairOf x0.length σ (i - j)) *ᵥ (pairOf x0.length σ i).2 =
    (pairOf x0.length σ i).1
  rw [this, recent_succ, bfgsList]
  exact bfgs_secant _ _ _ (hu.1.ne i (by omega))

end

/-- The loss `a ^ 4 + b ^ 2` of two weights, with any data. -/
def bowlLoss : LossFn ℚ (List ℚ) where
  evaluate _ _ w := .ok (List.zipWith (fun e a => a ^ e) [4, 2] w).sum
  gradient _ _ w := .ok (List.zipWith (fun (e : ℕ) a => e * a ^ (e - 1)) [4, 2] w)

/-- Parameters for the examples: two correction pairs, backtracking with the Wolfe condition. -/
def bowlParams : LBFGS.Params ℚ :=
  ⟨10, 2, 1, 1 / 1000, 1 / 1000, "backtracking", ⟨1 / 2, 21 / 10, 1 / 10000, 9 / 10, 100, 1 / 1000, 40, "WOLFE"⟩⟩

/-- The states of a run from the weights `(3, 1)`, with `v ↦ v` in place of the square root. -/
def bowlRun : Nat → State ℚ
  | 0 => initial bowlParams (fun _ => 0) [3, 1] [108, 2] 82 (1 / 100)
  | i + 1 =>
    match iteration id .backtracking bowlParams bowlLoss ⟨2, []⟩ [] (bowlRun i) with
    | .ok (.inr st) => st
    | _ => bowlRun i

/-- Example for C55: three iterations with a memory of two pairs, the last of which overwrites a slot. -/
example : IsIterates id .backtracking bowlParams bowlLoss ⟨2, []⟩ [] bowlRun 3 ∧
    bowlRun 0 = initial bowlParams (fun _ => 0) [3, 1] [108, 2] 82 (1 / 100) := by
  refine ⟨?_, rfl⟩
  unfold IsIterates
  decide +kernel


end OpenML
