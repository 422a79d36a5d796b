import Verif.Lemmas.LineSearch
import Mathlib.Tactic.FieldSimp

/-!
# Lemmas about the two-loop recursion
-/

namespace OpenML.LBFGS

open SGD Spec Matrix

set_option linter.unusedSectionVars false

variable {α : Type} [Field α] [LinearOrder α] [IsStrictOrderedRing α] {n : Nat}

/-- The vector with the entries of a list. -/
def vec (n : Nat) (l : List α) : Fin n → α := fun i => l.getD i 0

theorem ofFn_vec {l : List α} (h : l.length = n) : List.ofFn (vec n l) = l := by
  subst h
  apply List.ext_getElem
  · simp
  · intro i h1 h2
    simp [vec, List.getD_eq_getElem?_getD, h2]

theorem vec_ofFn (f : Fin n → α) : vec n (List.ofFn f) = f := by
  funext i
  simp [vec, List.getD_eq_getElem?_getD]

theorem dotL_ofFn (a b : Fin n → α) : Loss.dotL (List.ofFn a) (List.ofFn b) = a ⬝ᵥ b := by
  induction n with
  | zero => simp [Loss.dotL]
  | succ n ih =>
    rw [List.ofFn_succ, List.ofFn_succ, Loss.dotL_cons, ih]
    simp [dotProduct, Fin.sum_univ_succ]

theorem map_ofFn' (f : α → α) (a : Fin n → α) : (List.ofFn a).map f = List.ofFn fun i => f (a i) := by
  rw [List.map_ofFn]
  rfl

theorem zipWith_ofFn (f : α → α → α) (a b : Fin n → α) :
    List.zipWith f (List.ofFn a) (List.ofFn b) = List.ofFn fun i => f (a i) (b i) := by
  induction n with
  | zero => simp
  | succ n ih =>
    rw [List.ofFn_succ, List.ofFn_succ, List.zipWith_cons_cons, ih, List.ofFn_succ]

theorem addV_ofFn (a b : Fin n → α) : Loss.addV (List.ofFn a) (List.ofFn b) = .ok (List.ofFn (a + b)) := by
  rw [addV_eq_ok, zipWith_ofFn]
  simp
  rfl

theorem subV_ofFn (a b : Fin n → α) : Loss.subV (List.ofFn a) (List.ofFn b) = .ok (List.ofFn (a - b)) := by
  rw [subV_eq_ok, zipWith_ofFn]
  simp
  rfl

theorem dot_ofFn (a b : Fin n → α) : dot (List.ofFn a) (List.ofFn b) = .ok (a ⬝ᵥ b) := by
  rw [dot_ok (by simp), dotL_ofFn]

theorem quot_ok {a b : α} (h : b ≠ 0) : quot a b = .ok (a / b) := if_neg h

theorem quot_eq_ok {a b c : α} : quot a b = .ok c ↔ b ≠ 0 ∧ a / b = c := by
  unfold quot
  split <;> simp_all

theorem writeMem_eq_ok {β : Type} {mem mem' : List (Option β)} {j : Nat} {e : β} :
    writeMem mem j e = .ok mem' ↔ j < mem.length ∧ mem.set j (some e) = mem' := by
  unfold writeMem
  split <;> simp_all

theorem readMem_eq_ok {β : Type} {mem : List (Option β)} {j : Nat} {e : β} :
    readMem mem j = .ok e ↔ mem[j]? = some (some e) := by
  unfold readMem
  split <;> simp_all

theorem bfgs_mulVec (H : Matrix (Fin n) (Fin n) α) (s y q : Fin n → α) :
    bfgs H s y *ᵥ q = H *ᵥ (q - (s ⬝ᵥ q / (s ⬝ᵥ y)) • y) +
      (s ⬝ᵥ q / (s ⬝ᵥ y) - y ⬝ᵥ (H *ᵥ (q - (s ⬝ᵥ q / (s ⬝ᵥ y)) • y)) / (s ⬝ᵥ y)) • s := by
  unfold bfgs
  have h1 : (1 - (s ⬝ᵥ y)⁻¹ • vecMulVec y s) *ᵥ q = q - (s ⬝ᵥ q / (s ⬝ᵥ y)) • y := by
    rw [sub_mulVec, one_mulVec, smul_mulVec, vecMulVec_mulVec]
    funext i
    simp only [Pi.sub_apply, Pi.smul_apply, smul_eq_mul, MulOpposite.smul_eq_mul_unop, MulOpposite.unop_op, div_eq_mul_inv]
    ring
  rw [add_mulVec, ← mulVec_mulVec, ← mulVec_mulVec, h1]
  generalize H *ᵥ (q - (s ⬝ᵥ q / (s ⬝ᵥ y)) • y) = r
  rw [sub_mulVec, one_mulVec, smul_mulVec, vecMulVec_mulVec, smul_mulVec, vecMulVec_mulVec]
  funext i
  simp only [Pi.add_apply, Pi.sub_apply, Pi.smul_apply, smul_eq_mul, MulOpposite.smul_eq_mul_unop, MulOpposite.unop_op]
  ring

/-- The step down of an index in the ring buffer. -/
theorem ring_pred (m E : Nat) (hm : 0 < m) : ((E + 1) % m + m - 1) % m = E % m := by
  have h1 : (E + 1) % m + m - 1 = (E + 1) % m + (m - 1) := by omega
  rw [h1, Nat.mod_add_mod, show E + 1 + (m - 1) = E + m by omega, Nat.add_mod_right]

theorem ring_ne (m N N' : Nat) (h1 : N < N') (h2 : N' < N + m) : N % m ≠ N' % m := by
  intro h
  have h3 : N ≡ N' [MOD m] := h
  have h4 := (Nat.modEq_iff_dvd' h1.le).mp h3
  have := Nat.le_of_dvd (by omega) h4
  omega

theorem loop2_succ (m : Nat) (hm : 0 < m) (mem : List (Option (Pair α))) (al : List (Option α)) (b J : Nat) (d : List α) :
    loop2 m mem al (b + 1) (J % m) d = loop2 m mem al b (J % m) d >>= fun d' => loop2 m mem al 1 ((J + b) % m) d' := by
  induction b generalizing J d with
  | zero => simp only [loop2, Res.bind_ok, Nat.add_zero]
  | succ b ih =>
    rw [loop2, if_neg hm.ne']
    conv_rhs => rw [loop2, if_neg hm.ne']
    simp only [bind_assoc]
    congr 1; funext e
    congr 1; funext yd
    congr 1; funext beta
    congr 1; funext a
    congr 1; funext d'
    rw [Nat.mod_add_mod, ih, show J + 1 + b = J + (b + 1) by omega]

/-- The last `b` of the correction pairs with numbers below `E`, the most recent first. -/
def recent (P : Nat → (Fin n → α) × (Fin n → α)) (E b : Nat) : List ((Fin n → α) × (Fin n → α)) :=
  (List.range b).map fun i => P (E - 1 - i)

theorem recent_succ (P : Nat → (Fin n → α) × (Fin n → α)) (E b : Nat) : recent P (E + 1) (b + 1) = P E :: recent P E b := by
  unfold recent
  rw [List.range_succ_eq_map, List.map_cons, List.map_map]
  congr 1
  apply List.map_congr_left
  intro i _
  simp only [Function.comp_apply]
  congr 1
  omega

theorem loops (m : Nat) (hm : 0 < m) (mem : List (Option (Pair α))) (P : Nat → (Fin n → α) × (Fin n → α)) (b E : Nat) (hbE : b ≤ E)
    (hbm : b ≤ m)
    (hmem : ∀ N, E - b ≤ N → N < E → mem[N % m]? = some (some ⟨List.ofFn (P N).1, List.ofFn (P N).2, (P N).2 ⬝ᵥ (P N).1⟩) ∧
      (P N).1 ⬝ᵥ (P N).2 ≠ 0)
    (q : Fin n → α) (al : List (Option α)) (hal : al.length = m) :
    ∃ (q' : Fin n → α) (al' : List (Option α)), loop1 m mem b (E % m) (List.ofFn q) al = .ok ((E - b) % m, List.ofFn q', al') ∧ al'.length = m ∧
      (∀ N, E ≤ N → N < E - b + m → al'[N % m]? = al[N % m]?) ∧
      ∀ c al'', (∀ N, E - b ≤ N → N < E → al''[N % m]? = al'[N % m]?) →
        loop2 m mem al'' b ((E - b) % m) (List.ofFn (c • q')) = .ok (List.ofFn (bfgsList c (recent P E b) *ᵥ q)) := by
  induction b generalizing E q al with
  | zero =>
    refine ⟨q, al, rfl, hal, fun N _ _ => rfl, fun c al'' _ => ?_⟩
    simp [loop2, recent, bfgsList, smul_mulVec]
  | succ b ih =>
    obtain ⟨E, rfl⟩ : ∃ E', E = E' + 1 := ⟨E - 1, by omega⟩
    have hlt : E % m < al.length := by rw [hal]; exact Nat.mod_lt _ hm
    obtain ⟨hE, hne⟩ := hmem E (by omega) (by omega)
    have hys : (P E).2 ⬝ᵥ (P E).1 = (P E).1 ⬝ᵥ (P E).2 := dotProduct_comm _ _
    rw [hys] at hE
    set a := (P E).1 ⬝ᵥ q / ((P E).1 ⬝ᵥ (P E).2) with ha
    obtain ⟨q', al', h1, h2, h3, h4⟩ := ih E (by omega) (by omega) (fun N hN1 hN2 => hmem N (by omega) (by omega)) (q - a • (P E).2)
      (al.set (E % m) (some a)) (by rw [List.length_set, hal])
    have hsub : E + 1 - (b + 1) = E - b := by omega
    refine ⟨q', al', ?_, h2, fun N hN1 hN2 => ?_, fun c al'' hal'' => ?_⟩
    · rw [loop1, if_neg hm.ne']
      dsimp only
      rw [ring_pred m E hm, readMem_eq_ok.mpr hE, Res.bind_ok, dot_ofFn, Res.bind_ok, quot_ok hne, Res.bind_ok,
        writeMem_eq_ok.mpr ⟨hlt, rfl⟩, Res.bind_ok, map_ofFn', addV_ofFn, Res.bind_ok, hsub, ← h1]
      congr 2
      funext i
      simp only [Pi.add_apply, Pi.sub_apply, Pi.smul_apply, smul_eq_mul, ha]
      ring
    · rw [h3 N (by omega) (by omega), List.getElem?_set_ne]
      exact ring_ne m E N (by omega) (by omega)
    · have hread : al''[E % m]? = some (some a) := by
        rw [hal'' E (by omega) (by omega), h3 E le_rfl (by omega), List.getElem?_set_self (by rw [hal]; exact Nat.mod_lt _ hm)]
      rw [hsub, loop2_succ m hm, h4 c al'' (fun N hN1 hN2 => hal'' N (by omega) (by omega)), Res.bind_ok,
        show E - b + b = E by omega, loop2, if_neg hm.ne', readMem_eq_ok.mpr hE, Res.bind_ok, dot_ofFn, Res.bind_ok, quot_ok hne,
        Res.bind_ok, readMem_eq_ok.mpr hread, Res.bind_ok, map_ofFn', addV_ofFn, Res.bind_ok, loop2, recent_succ, bfgsList,
        bfgs_mulVec]
      rfl

theorem direction_eq (m : Nat) (hm : 0 < m) (mem : List (Option (Pair α))) (P : Nat → (Fin n → α) × (Fin n → α)) (b E : Nat)
    (hbE : b ≤ E) (hbm : b ≤ m)
    (hmem : ∀ N, E - b ≤ N → N < E → mem[N % m]? = some (some ⟨List.ofFn (P N).1, List.ofFn (P N).2, (P N).2 ⬝ᵥ (P N).1⟩) ∧
      (P N).1 ⬝ᵥ (P N).2 ≠ 0)
    (g : Fin n → α) (al : List (Option α)) (hal : al.length = m) (ys yy : α) (hyy : yy ≠ 0) :
    ∃ al', al'.length = m ∧
      direction m mem al b (E % m) ys yy (List.ofFn g) = .ok (List.ofFn (-(bfgsList (ys / yy) (recent P E b) *ᵥ g)), al') := by
  obtain ⟨q', al', h1, h2, -, h4⟩ := loops m hm mem P b E hbE hbm hmem (-g) al hal
  refine ⟨al', h2, ?_⟩
  unfold direction
  rw [map_ofFn', show (List.ofFn fun i => -g i) = List.ofFn (-g) from rfl, h1, Res.bind_ok, quot_ok hyy, Res.bind_ok]
  dsimp only
  rw [map_ofFn', show (List.ofFn fun i => q' i * (ys / yy)) = List.ofFn ((ys / yy) • q') by
    congr 1; funext i; simp [mul_comm], h4 _ al' (fun N _ _ => rfl), Res.bind_ok, mulVec_neg]

end OpenML.LBFGS
