import Verif.Spec.TruncatedSVDObject
import Verif.Props.TruncatedSVD
import Verif.Lemmas.SvdUnique

/-!
# C168: programs with a `TruncatedSVD` object
-/

namespace OpenML

open Spec TruncatedSVDObject
open scoped Matrix

namespace TruncatedSVDObject

variable {k p d : Nat} {dec : TruncatedSVD.Decompositions} {s : Settings}

theorem run_append (cs ds : List (Call k p d)) (st : Option (TruncatedSVD.Fitted k d)) :
    run dec s st (cs ++ ds) = (do
      let r ← run dec s st cs
      let t ← run dec s r.1 ds
      .ok (t.1, r.2 ++ t.2)) := by
  induction cs generalizing st with
  | nil =>
    rw [List.nil_append, run, Res.bind_ok]
    generalize run dec s st ds = R
    cases R <;> rfl
  | cons c cs ih =>
    rw [List.cons_append, run, run]
    generalize step dec s st c = R
    cases R with
    | ok r =>
      simp only [Res.bind_ok, ih]
      generalize run dec s r.1 cs = R2
      cases R2 with
      | ok t =>
        simp only [Res.bind_ok]
        generalize run dec s t.1 ds = R3
        cases R3 <;> rfl
      | _ => rfl
    | _ => rfl

theorem run_snoc {cs : List (Call k p d)} {c : Call k p d} {st st' : Option (TruncatedSVD.Fitted k d)} {seen : List (Seen k d)} :
    run dec s st (cs ++ [c]) = .ok (st', seen) ↔
    ∃ st1 seen1 a, run dec s st cs = .ok (st1, seen1) ∧ step dec s st1 c = .ok (st', a) ∧ seen = seen1 ++ [a] := by
  rw [run_append]
  constructor
  · intro h
    obtain ⟨⟨st1, seen1⟩, h1, h⟩ := Res.bind_eq_ok.mp h
    obtain ⟨⟨st2, seen2⟩, h2, h⟩ := Res.bind_eq_ok.mp h
    rw [run, Res.bind_eq_ok] at h2
    obtain ⟨⟨st3, a⟩, h2, h3⟩ := h2
    cases h3
    cases h
    exact ⟨st1, seen1, a, h1, h2, rfl⟩
  · rintro ⟨st1, seen1, a, h1, h2, rfl⟩
    rw [h1, Res.bind_ok, run, h2]
    rfl

theorem program_snoc {cs : List (Call k p d)} {c : Call k p d} {seen : List (Seen k d)} :
    program dec s (cs ++ [c]) = .ok seen ↔
    ∃ st1 seen1 st' a, run dec s none cs = .ok (st1, seen1) ∧ step dec s st1 c = .ok (st', a) ∧ seen = seen1 ++ [a] := by
  unfold program
  constructor
  · intro h
    obtain ⟨⟨st', seen'⟩, h1, h⟩ := Res.bind_eq_ok.mp h
    cases h
    obtain ⟨st1, seen1, a, h2, h3, h4⟩ := run_snoc.mp h1
    exact ⟨st1, seen1, st', a, h2, h3, h4⟩
  · rintro ⟨st1, seen1, st', a, h2, h3, h4⟩
    rw [run_snoc.mpr ⟨st1, seen1, a, h2, h3, h4⟩]
    rfl

theorem program_one {c : Call k p d} {a : Seen k d} :
    program dec s [c] = .ok [a] ↔ ∃ st', step dec s none c = .ok (st', a) := by
  have h := program_snoc (dec := dec) (s := s) (cs := []) (c := c) (seen := [a])
  rw [List.nil_append] at h
  rw [h]
  constructor
  · rintro ⟨st1, seen1, st', b, h1, h2, h3⟩
    cases h1
    cases h3
    exact ⟨st', h2⟩
  · rintro ⟨st', h2⟩
    exact ⟨none, [], st', a, rfl, h2, rfl⟩

theorem fitReturns_iff {M : Nat} {X : Matrix (Fin M) (Fin d) ℝ} {Q : Matrix (Fin d) (Fin (k + p)) ℝ} :
    FitReturns dec s (.fit M X Q) ↔ ∃ st, TruncatedSVD.fit dec s.solver X k p s.iters s.normalizer Q = .ok st := by
  unfold FitReturns
  rw [program_one]
  constructor
  · rintro ⟨-, st', h⟩
    rw [step] at h
    split at h <;> cases h
    exact ⟨_, by assumption⟩
  · rintro ⟨st, h⟩
    exact ⟨⟨M, X, Q, rfl⟩, st, by rw [step, h]⟩

/-- The members at the end of a program. -/
theorem run_state {cs : List (Call k p d)} {st : Option (TruncatedSVD.Fitted k d)} {seen : List (Seen k d)}
    (h : run dec s none cs = .ok (st, seen)) :
    (st = none ∧ ∀ c ∈ cs, ¬ FitReturns dec s c) ∨
    ∃ M X Q, LastReturning dec s cs (.fit M X Q) ∧ TruncatedSVD.fit dec s.solver X k p s.iters s.normalizer Q = .ok st := by
  induction cs using List.reverseRecOn generalizing st seen with
  | nil => cases h; exact .inl ⟨rfl, by simp⟩
  | append_singleton cs c ih =>
    obtain ⟨st1, seen1, a, h1, h2, rfl⟩ := run_snoc.mp h
    have keep : ¬ FitReturns dec s c → st = st1 → ((st = none ∧ ∀ c' ∈ cs ++ [c], ¬ FitReturns dec s c') ∨
        ∃ M X Q, LastReturning dec s (cs ++ [c]) (.fit M X Q) ∧
          TruncatedSVD.fit dec s.solver X k p s.iters s.normalizer Q = .ok st) := by
      rintro hc rfl
      rcases ih h1 with ⟨h3, h4⟩ | ⟨M, X, Q, ⟨b, a, h3, h4, h5⟩, h6⟩
      · refine .inl ⟨h3, fun c' hc' => ?_⟩
        rcases List.mem_append.mp hc' with hc' | hc'
        · exact h4 c' hc'
        · rw [List.mem_singleton.mp hc']
          exact hc
      · refine .inr ⟨M, X, Q, ⟨b, a ++ [c], by rw [h3]; simp, h4, fun c' hc' => ?_⟩, h6⟩
        rcases List.mem_append.mp hc' with hc' | hc'
        · exact h5 c' hc'
        · rw [List.mem_singleton.mp hc']
          exact hc
    cases c with
    | fit M X Q =>
      rw [step] at h2
      split at h2
      · rename_i st2 h3
        cases h2
        exact .inr ⟨M, X, Q, ⟨cs, [], rfl, fitReturns_iff.mpr ⟨_, h3⟩, by simp⟩, h3⟩
      · rename_i e h3
        cases h2
        refine keep (fun hc => ?_) rfl
        obtain ⟨_, h4⟩ := fitReturns_iff.mp hc
        rw [h3] at h4
        cases h4
      · cases h2
      · cases h2
    | transform m Z =>
      rw [step, Res.bind_eq_ok] at h2
      obtain ⟨T, -, h2⟩ := h2
      cases h2
      exact keep (fun hc => by obtain ⟨⟨M, X, Q, hc⟩, -⟩ := hc; cases hc) rfl
    | components => cases h2; exact keep (fun hc => by obtain ⟨⟨M, X, Q, hc⟩, -⟩ := hc; cases hc) rfl
    | explainedVar => cases h2; exact keep (fun hc => by obtain ⟨⟨M, X, Q, hc⟩, -⟩ := hc; cases hc) rfl
    | explainedVarRatio => cases h2; exact keep (fun hc => by obtain ⟨⟨M, X, Q, hc⟩, -⟩ := hc; cases hc) rfl
    | singularValues => cases h2; exact keep (fun hc => by obtain ⟨⟨M, X, Q, hc⟩, -⟩ := hc; cases hc) rfl

/-- Signs are fixed by the first largest entry. -/
theorem sign_fixed {n : Nat} (u u' : Fin n → ℝ) (e : ℝ) (he : e = 1 ∨ e = -1) (h : ∀ i, u' i = e * u i)
    (hu : ∃ q, 0 < u q ∧ ∀ i, |u i| ≤ u q ∧ (|u i| = u q → q ≤ i))
    (hu' : ∃ q, 0 < u' q ∧ ∀ i, |u' i| ≤ u' q ∧ (|u' i| = u' q → q ≤ i)) : e = 1 := by
  rcases he with he | rfl
  · exact he
  · exfalso
    obtain ⟨q, h1, h2⟩ := hu
    obtain ⟨q', h3, h4⟩ := hu'
    have e1 : ∀ i, |u' i| = |u i| := fun i => by rw [h i]; simp
    have h5 : |u q'| = u' q' := by rw [← e1]; exact abs_of_pos h3
    have h6 : |u q| = u q := abs_of_pos h1
    have h7 : u q = u' q' := by
      apply le_antisymm
      · rw [← h6, ← e1]; exact (h4 q).1
      · rw [← h5]; exact (h2 q').1
    have h8 : q = q' := le_antisymm ((h2 q').2 (h5.trans h7.symm)) ((h4 q).2 (by rw [e1, h6, h7]))
    rw [h q', ← h8] at h7
    linarith

/-- The outcomes of `fit` with a known normalizer. -/
theorem fit_cases (hd : dec.Correct) (hs : s.solver = "randomized") (hn : s.normalizer ∈ ["None", "LU", "QR"]) (hd0 : 0 < d) {M : Nat}
    (hM : 0 < M) (X : Matrix (Fin M) (Fin d) ℝ) (Q : Matrix (Fin d) (Fin (k + p)) ℝ) :
    (k + p > min M d ∧ TruncatedSVD.fit dec s.solver X k p s.iters s.normalizer Q = .throw .invalidArgument) ∨
    (k + p ≤ min M d ∧ k + p = d ∧ ∃ f, TruncatedSVD.fit dec s.solver X k p s.iters s.normalizer Q = .ok (some f)) ∨
    (k + p ≤ min M d ∧ k + p ≠ d ∧ TruncatedSVD.fit dec s.solver X k p s.iters s.normalizer Q = .ub) := by
  obtain ⟨h1, -, h3⟩ := C60_shapes hd X k p s.iters s.normalizer Q hM hd0
  rw [hs]
  by_cases h : k + p ≤ min M d
  · obtain ⟨h4, h5⟩ := h3 (.inr hn) h
    by_cases he : k + p = d
    · exact .inr (.inl ⟨h, he, h4 he⟩)
    · exact .inr (.inr ⟨h, he, h5 he⟩)
  · exact .inl ⟨not_le.mp h, h1 (not_le.mp h)⟩

/-- Whether the members hold results. -/
theorem run_isSome (hd : dec.Correct) (hs : s.solver = "randomized") (hn : s.normalizer ∈ ["None", "LU", "QR"]) (hd0 : 0 < d)
    {cs : List (Call k p d)} (hM : ∀ M X Q, Call.fit M X Q ∈ cs → 0 < M) {st : Option (TruncatedSVD.Fitted k d)} {seen : List (Seen k d)}
    (h : run dec s none cs = .ok (st, seen)) : (∃ f, st = some f) ↔ ∃ M X Q, Call.fit M X Q ∈ cs ∧ k + p ≤ min M d := by
  rcases run_state h with ⟨rfl, h1⟩ | ⟨M, X, Q, ⟨b, a, rfl, h1, h2⟩, h3⟩
  · refine ⟨fun h2 => absurd h2 (by simp), ?_⟩
    rintro ⟨M, X, Q, h2, h3⟩
    exfalso
    rcases fit_cases hd hs hn hd0 (hM M X Q h2) X Q with ⟨h4, -⟩ | ⟨-, -, f, h4⟩ | ⟨-, -, h4⟩
    · omega
    · exact h1 _ h2 (fitReturns_iff.mpr ⟨_, h4⟩)
    · obtain ⟨b, a, rfl⟩ := List.append_of_mem h2
      rw [run_append] at h
      obtain ⟨⟨st1, seen1⟩, -, h⟩ := Res.bind_eq_ok.mp h
      obtain ⟨⟨st2, seen2⟩, h, -⟩ := Res.bind_eq_ok.mp h
      rw [run, step, h4] at h
      cases h
  · have hm : Call.fit M X Q ∈ b ++ Call.fit M X Q :: a := by simp
    rcases fit_cases hd hs hn hd0 (hM M X Q hm) X Q with ⟨-, h4⟩ | ⟨h5, -, f, h4⟩ | ⟨-, -, h4⟩
    · rw [h4] at h3; cases h3
    · rw [h4] at h3
      cases h3
      exact ⟨fun _ => ⟨M, X, Q, hm, h5⟩, fun _ => ⟨f, rfl⟩⟩
    · rw [h4] at h3; cases h3

/-- The results of `fit` for two draws. -/
theorem fit_draws (hd : dec.Correct) (hs : s.solver = "randomized") (hn : s.normalizer ∈ ["LU", "QR"]) (hi : 0 < s.iters) (hd0 : 0 < d)
    {M : Nat} (hM : 0 < M) (X : Matrix (Fin M) (Fin d) ℝ) (Q Q' : Matrix (Fin d) (Fin (k + p)) ℝ) :
    ((k + p ≤ M → LeadingDistinct k X) → TruncatedSVD.fit dec s.solver X k p s.iters s.normalizer Q =
      TruncatedSVD.fit dec s.solver X k p s.iters s.normalizer Q') ∧
    (TruncatedSVD.fit dec s.solver X k p s.iters s.normalizer Q = TruncatedSVD.fit dec s.solver X k p s.iters s.normalizer Q' ∨
      ∃ f f', TruncatedSVD.fit dec s.solver X k p s.iters s.normalizer Q = .ok (some f) ∧
        TruncatedSVD.fit dec s.solver X k p s.iters s.normalizer Q' = .ok (some f') ∧ f.singular = f'.singular) := by
  have hn' : s.normalizer ∈ ["None", "LU", "QR"] := List.mem_cons_of_mem _ hn
  have hnn : s.normalizer ≠ "None" := by
    rintro he
    rw [he] at hn
    revert hn
    decide
  rcases fit_cases hd hs hn' hd0 hM X Q with ⟨h1, h2⟩ | ⟨h1, rfl, -⟩ | ⟨h1, h3, h2⟩
  · rcases fit_cases hd hs hn' hd0 hM X Q' with ⟨-, h4⟩ | ⟨h5, -⟩ | ⟨h5, -⟩
    · rw [h2, h4]; exact ⟨fun _ => rfl, .inl rfl⟩
    · omega
    · omega
  · have hKM : k + p ≤ M := by omega
    obtain ⟨U, σ, V, h4, h5, h6⟩ := C87_exact hd X s.iters s.normalizer Q hM hKM (.inr hn') (.inl ⟨hi, hnn⟩) true
    obtain ⟨U', σ', V', h4', h5', h6'⟩ := C87_exact hd X s.iters s.normalizer Q' hM hKM (.inr hn') (.inl ⟨hi, hnn⟩) true
    obtain rfl := SvdUnique.singular_unique h4 h4'
    unfold TruncatedSVD.fit
    rw [if_pos hs, if_pos hs, h6, h6', Res.bind_ok, Res.bind_ok]
    refine ⟨?_, .inr ⟨_, _, rfl, rfl, rfl⟩⟩
    intro hX
    obtain ⟨U0, σ0, V0, h7, h8⟩ := hX hKM
    obtain rfl := SvdUnique.singular_unique h4 h7
    have hV : (Matrix.of fun i j => V j (Fin.castLE (Nat.le_add_right k p) i) : Matrix (Fin k) (Fin (k + p)) ℝ) =
        Matrix.of fun i j => V' j (Fin.castLE (Nat.le_add_right k p) i) := by
      ext i j
      rw [Matrix.of_apply, Matrix.of_apply]
      obtain ⟨h9, h10⟩ := h8 (Fin.castLE (Nat.le_add_right k p) i) i.2
      obtain ⟨e, he, h11, h12⟩ := SvdUnique.vectors_unique h4 h4' _ h9 h10
      have := sign_fixed (fun a => U a (Fin.castLE (Nat.le_add_right k p) i)) (fun a => U' a (Fin.castLE (Nat.le_add_right k p) i)) e he h12
        (h5 rfl _) (h5' rfl _)
      rw [h11 j, this, one_mul]
    rw [hV]
  · rcases fit_cases hd hs hn' hd0 hM X Q' with ⟨h5, -⟩ | ⟨-, h5, -⟩ | ⟨-, -, h4⟩
    · omega
    · exact absurd h5 h3
    · rw [h2, h4]; exact ⟨fun _ => rfl, .inl rfl⟩

end TruncatedSVDObject

/-- Data with the singular values 3 and 2. -/
def exampleSvdData : Matrix (Fin 3) (Fin 2) ℝ := !![0, 3; 2, 0; 0, 0]

theorem exampleSvdData_distinct : LeadingDistinct 1 exampleSvdData := by
  refine ⟨!![1, 0; 0, 1; 0, 0], ![3, 2], !![0, 1; 1, 0], ⟨?_, ?_, ?_, ?_, ?_⟩, ?_⟩
  · ext i j
    fin_cases i <;> fin_cases j <;> simp [Matrix.mul_apply, Fin.sum_univ_succ]
  · ext i j
    fin_cases i <;> fin_cases j <;> simp [Matrix.mul_apply, Fin.sum_univ_succ]
  · intro i
    fin_cases i <;> simp
  · intro i j hij
    fin_cases i <;> fin_cases j <;> simp at hij ⊢
    norm_num
  · ext i j
    fin_cases i <;> fin_cases j <;> simp [exampleSvdData, Matrix.mul_apply, Fin.sum_univ_two, Matrix.vecMul_diagonal]
  · intro i hi
    fin_cases i
    · refine ⟨by simp, fun j hj => ?_⟩
      fin_cases j
      · exact absurd rfl hj
      · simp
    · simp at hi

/-- Four power iterations with the LU decomposition. -/
def exampleSettings : Settings := ⟨4, "LU", "randomized"⟩

/-- A program that asks before fitting, fits, fails to fit with one sample only, and transforms. -/
def exampleCalls (Q : Matrix (Fin 2) (Fin (1 + 1)) ℝ) : List (Call 1 1 2) :=
  [.components, .fit 3 exampleSvdData Q, .fit 1 !![1, 2] 0, .transform 1 !![5, 6]]

/-- C168: for a known normalizer a program is defined exactly if every call of `fit` with enough samples and features has as many features
as random vectors, and every `transform` comes after a call of `fit` that returned. -/
theorem C168_defined {k p d : Nat} (dec : TruncatedSVD.Decompositions) (hd : dec.Correct) (s : Settings) (hs : s.solver = "randomized")
    (hn : s.normalizer ∈ ["None", "LU", "QR"]) (hd0 : 0 < d) (cs : List (Call k p d)) (hM : ∀ M X Q, Call.fit M X Q ∈ cs → 0 < M) :
    (∃ seen, program dec s cs = .ok seen) ↔
      (∀ M X Q, Call.fit M X Q ∈ cs → k + p ≤ min M d → k + p = d) ∧
      ∀ before m Z after, cs = before ++ .transform m Z :: after → ∃ M X Q, Call.fit M X Q ∈ before ∧ k + p ≤ min M d := by
  induction cs using List.reverseRecOn with
  | nil => exact ⟨fun _ => ⟨by simp, by simp⟩, fun _ => ⟨[], rfl⟩⟩
  | append_singleton cs c ih =>
    have hM' : ∀ M X Q, Call.fit M X Q ∈ cs → 0 < M := fun M X Q hm => hM M X Q (List.mem_append_left _ hm)
    have hrun : (∃ seen, program dec s cs = .ok seen) ↔ ∃ st seen, run dec s none cs = .ok (st, seen) := by
      unfold program
      constructor
      · rintro ⟨seen, h⟩
        obtain ⟨⟨st, seen'⟩, h1, -⟩ := Res.bind_eq_ok.mp h
        exact ⟨st, seen', h1⟩
      · rintro ⟨st, seen, h⟩
        rw [h]
        exact ⟨seen, rfl⟩
    rw [hrun] at ih
    have ih := ih hM'
    have hsplit : (∀ before m (Z : Matrix (Fin m) (Fin d) ℝ) after, cs ++ [c] = before ++ Call.transform m Z :: after →
          ∃ M X Q, Call.fit M X Q ∈ before ∧ k + p ≤ min M d) ↔
        (∀ before m (Z : Matrix (Fin m) (Fin d) ℝ) after, cs = before ++ Call.transform m Z :: after →
          ∃ M X Q, Call.fit M X Q ∈ before ∧ k + p ≤ min M d) ∧
        ((∃ m Z, c = Call.transform m Z) → ∃ M X Q, Call.fit M X Q ∈ cs ∧ k + p ≤ min M d) := by
      constructor
      · intro h
        refine ⟨fun b m Z a he => h b m Z (a ++ [c]) (by rw [he]; simp), ?_⟩
        rintro ⟨m, Z, rfl⟩
        exact h cs m Z [] rfl
      · rintro ⟨h1, h2⟩ b m Z a he
        rcases List.eq_nil_or_concat a with rfl | ⟨a', x, rfl⟩
        · obtain ⟨rfl, h3⟩ := List.append_inj' he rfl
          exact h2 ⟨m, Z, by simpa using h3⟩
        · rw [List.concat_eq_append, ← List.cons_append, ← List.append_assoc] at he
          obtain ⟨h3, -⟩ := List.append_inj' he rfl
          exact h1 b m Z a' h3
    have hfit : (∀ M X Q, Call.fit M X Q ∈ cs ++ [c] → k + p ≤ min M d → k + p = d) ↔
        (∀ M X Q, Call.fit M X Q ∈ cs → k + p ≤ min M d → k + p = d) ∧ ∀ M X Q, c = .fit M X Q → k + p ≤ min M d → k + p = d := by
      constructor
      · intro h
        exact ⟨fun M X Q hm => h M X Q (List.mem_append_left _ hm), fun M X Q hm => h M X Q (by simp [hm])⟩
      · rintro ⟨h1, h2⟩ M X Q hm
        rcases List.mem_append.mp hm with hm | hm
        · exact h1 M X Q hm
        · exact h2 M X Q (List.mem_singleton.mp hm).symm
    rw [hsplit, hfit]
    constructor
    · rintro ⟨seen, h⟩
      obtain ⟨st1, seen1, st', a, h1, h2, rfl⟩ := program_snoc.mp h
      obtain ⟨h3, h4⟩ := ih.mp ⟨_, _, h1⟩
      refine ⟨⟨h3, ?_⟩, h4, ?_⟩
      · rintro M X Q rfl h5
        rcases fit_cases hd hs hn hd0 (hM M X Q (by simp)) X Q with ⟨h6, -⟩ | ⟨-, h6, -⟩ | ⟨-, -, h6⟩
        · omega
        · exact h6
        · rw [step, h6] at h2
          cases h2
      · rintro ⟨m, Z, rfl⟩
        refine (run_isSome hd hs hn hd0 hM' h1).mp ?_
        cases st1 with
        | none => cases h2
        | some f => exact ⟨f, rfl⟩
    · rintro ⟨⟨h3, h5⟩, h4, h6⟩
      obtain ⟨st1, seen1, h1⟩ := ih.mpr ⟨h3, h4⟩
      have : ∃ st' a, step dec s st1 c = .ok (st', a) := by
        cases c with
        | fit M X Q =>
          rw [step]
          rcases fit_cases hd hs hn hd0 (hM M X Q (by simp)) X Q with ⟨-, h7⟩ | ⟨-, -, f, h7⟩ | ⟨h7, h8, -⟩
          · rw [h7]; exact ⟨_, _, rfl⟩
          · rw [h7]; exact ⟨_, _, rfl⟩
          · exact absurd (h5 M X Q rfl h7) h8
        | transform m Z =>
          obtain ⟨f, rfl⟩ := (run_isSome hd hs hn hd0 hM' h1).mpr (h6 ⟨m, Z, rfl⟩)
          exact ⟨_, _, rfl⟩
        | _ => exact ⟨_, _, rfl⟩
      obtain ⟨st', a, h2⟩ := this
      exact ⟨_, program_snoc.mpr ⟨st1, seen1, st', a, h1, h2, rfl⟩⟩

theorem exampleCalls_defined (dec : TruncatedSVD.Decompositions) (hd : dec.Correct) (Q : Matrix (Fin 2) (Fin (1 + 1)) ℝ)
    (ds : List (Call 1 1 2)) (hds : ds = [] ∨ ds = [.singularValues] ∨ ds = [.fit 1 !![1, 2] 0]) :
    (∀ M X Q', Call.fit M X Q' ∈ exampleCalls Q ++ ds → 0 < M) ∧ ∃ seen, program dec exampleSettings (exampleCalls Q ++ ds) = .ok seen := by
  have hM : ∀ M X Q', Call.fit M X Q' ∈ exampleCalls Q ++ ds → 0 < M := by
    intro M X Q' hm
    rcases hds with rfl | rfl | rfl <;> simp [exampleCalls] at hm <;> omega
  refine ⟨hM, (C168_defined dec hd exampleSettings rfl (by simp [exampleSettings]) (by norm_num) _ hM).mpr ⟨fun _ _ _ _ _ => rfl, ?_⟩⟩
  intro b m Z a he
  refine ⟨3, exampleSvdData, Q, ?_, by decide⟩
  rcases b with _ | ⟨c1, _ | ⟨c2, b⟩⟩
  · simp [exampleCalls] at he
  · simp [exampleCalls] at he
  · simp only [exampleCalls, List.cons_append, List.cons.injEq] at he
    rw [← he.2.1]
    simp

/-- Example: such a program, and one that transforms first, which is not defined. -/
example : ∃ dec : TruncatedSVD.Decompositions, dec.Correct ∧ exampleSettings.solver = "randomized" ∧
    exampleSettings.normalizer ∈ ["None", "LU", "QR"] ∧ (∀ M X Q, Call.fit M X Q ∈ exampleCalls 1 → 0 < M) ∧
    (∃ seen, program dec exampleSettings (exampleCalls 1) = .ok seen) ∧
    ¬ ∃ seen, program dec exampleSettings ([.transform 1 !![5, 6]] : List (Call 1 1 2)) = .ok seen := by
  obtain ⟨dec, hd⟩ := TruncatedSVD.exists_correct
  obtain ⟨h1, h2⟩ := exampleCalls_defined dec hd 1 [] (.inl rfl)
  rw [List.append_nil] at h1 h2
  refine ⟨dec, hd, rfl, by simp [exampleSettings], h1, h2, ?_⟩
  rintro ⟨seen, h⟩
  cases h

/-- C168: every answer in a program is that of a new object which has only been given the data and random numbers of the last call of
`fit` that returned; before such a call the getters give matrices and vectors without entries. -/
theorem C168_answers {k p d : Nat} (dec : TruncatedSVD.Decompositions) (s : Settings) (cs : List (Call k p d)) (q : Call k p d)
    (hq : ∀ M X Q, q ≠ .fit M X Q) (seen : List (Seen k d)) (h : program dec s (cs ++ [q]) = .ok seen) :
    ((∀ c ∈ cs, ¬ FitReturns dec s c) ∧ seen.getLast? = some .empty) ∨
    ∃ c a, LastReturning dec s cs c ∧ seen.getLast? = some a ∧ program dec s [c, q] = .ok [.done, a] := by
  obtain ⟨st, seen1, st', a, h1, h2, rfl⟩ := program_snoc.mp h
  rcases run_state h1 with ⟨rfl, h3⟩ | ⟨M, X, Q, h3, h4⟩
  · refine .inl ⟨h3, ?_⟩
    cases q with
    | fit M X Q => exact absurd rfl (hq M X Q)
    | transform m Z => cases h2
    | _ => cases h2; simp [getter]
  · refine .inr ⟨_, a, h3, by simp, ?_⟩
    rw [show ([.fit M X Q, q] : List (Call k p d)) = [.fit M X Q] ++ [q] from rfl, program_snoc]
    refine ⟨st, [.done], st', a, ?_, h2, rfl⟩
    rw [run, step, h4]
    rfl

/-- Example: the singular values read after the failed call of `fit` are those of the data before. -/
example : ∃ dec : TruncatedSVD.Decompositions, ∃ seen, program dec exampleSettings (exampleCalls 1 ++ [.singularValues]) = .ok seen ∧
    (∀ M X Q, (Call.singularValues : Call 1 1 2) ≠ .fit M X Q) ∧ LastReturning dec exampleSettings (exampleCalls 1) (.fit 3 exampleSvdData 1) := by
  obtain ⟨dec, hd⟩ := TruncatedSVD.exists_correct
  obtain ⟨-, seen, h⟩ := exampleCalls_defined dec hd 1 [.singularValues] (.inr (.inl rfl))
  refine ⟨dec, seen, h, by simp, [.components], [.fit 1 !![1, 2] 0, .transform 1 !![5, 6]], rfl, ?_, ?_⟩
  · rw [fitReturns_iff]
    obtain ⟨f, hf⟩ := ((C60_shapes hd exampleSvdData 1 1 4 "LU" 1 (by norm_num) (by norm_num)).2.2 (.inr (by simp)) (by decide)).1 rfl
    exact ⟨_, hf⟩
  · intro c hc
    rcases List.mem_cons.mp hc with rfl | hc
    · rw [fitReturns_iff]
      rintro ⟨st, h⟩
      have := (C60_shapes hd (!![1, 2] : Matrix (Fin 1) (Fin 2) ℝ) 1 1 4 "LU" 0 (by norm_num) (by norm_num)).1 (by decide)
      have h' : TruncatedSVD.fit dec "randomized" (!![1, 2] : Matrix (Fin 1) (Fin 2) ℝ) 1 1 4 "LU" 0 = .ok st := h
      rw [this] at h'
      cases h'
    · rw [List.mem_singleton.mp hc]
      rintro ⟨⟨M, X, Q, hc⟩, -⟩
      cases hc

/-- C168: what a program sees of a call of `fit` does not depend on the calls before. -/
theorem C168_outcome {k p d : Nat} (dec : TruncatedSVD.Decompositions) (s : Settings) (cs : List (Call k p d)) (M : Nat)
    (X : Matrix (Fin M) (Fin d) ℝ) (Q : Matrix (Fin d) (Fin (k + p)) ℝ) (seen : List (Seen k d))
    (h : program dec s (cs ++ [.fit M X Q]) = .ok seen) : ∃ a, seen.getLast? = some a ∧ program dec s [.fit M X Q] = .ok [a] := by
  obtain ⟨st, seen1, st', a, h1, h2, rfl⟩ := program_snoc.mp h
  refine ⟨a, by simp, program_one.mpr ?_⟩
  rw [step] at h2
  rw [step]
  split at h2 <;> rename_i h3 <;> cases h2
  · exact ⟨_, rfl⟩
  · exact ⟨none, rfl⟩

/-- Example: a failing call after the example program. -/
example : ∃ dec : TruncatedSVD.Decompositions, ∃ seen,
    program dec exampleSettings (exampleCalls 1 ++ [.fit 1 !![1, 2] 0]) = .ok seen := by
  obtain ⟨dec, hd⟩ := TruncatedSVD.exists_correct
  exact ⟨dec, (exampleCalls_defined dec hd 1 _ (.inr (.inr rfl))).2⟩

/-- C168: what a program reads after fitting data that has as many features as there are random vectors and at least as many samples:
orthonormal components, the lengths of their images, which are the largest possible, the mean square deviations of the transformed data,
their ratios to the variance of all features, and products of new samples with the components. -/
theorem C168_values {k p : Nat} (dec : TruncatedSVD.Decompositions) (hd : dec.Correct) (s : Settings) (hs : s.solver = "randomized")
    (hn : s.iters = 0 ∨ s.normalizer ∈ ["None", "LU", "QR"]) {M m : Nat} (X : Matrix (Fin M) (Fin (k + p)) ℝ)
    (Q : Matrix (Fin (k + p)) (Fin (k + p)) ℝ) (Z : Matrix (Fin m) (Fin (k + p)) ℝ) (hM : 0 < M) (hKM : k + p ≤ M)
    (hinv : (0 < s.iters ∧ s.normalizer ≠ "None") ∨ IsUnit Q.det) :
    ∃ (C : Matrix (Fin k) (Fin (k + p)) ℝ) (e : Fin k → ℝ) (r : Option (Fin k → ℝ)) (σ : Fin k → ℝ),
      program dec s [.fit M X Q, .transform m Z, .components, .explainedVar, .explainedVarRatio, .singularValues] =
        .ok [.done, .projected m (Z * Cᵀ), .components C, .vector (some e), .vector r, .vector (some σ)] ∧
      C * Cᵀ = 1 ∧ (∀ i, σ i = Real.sqrt ((X *ᵥ C i) ⬝ᵥ (X *ᵥ C i))) ∧
      (∀ i v, v ⬝ᵥ v = 1 → (∀ j < i, C j ⬝ᵥ v = 0) → Real.sqrt ((X *ᵥ v) ⬝ᵥ (X *ᵥ v)) ≤ σ i) ∧
      (∀ i, e i = (∑ a, ((X * Cᵀ) a i - columnMean (X * Cᵀ) i) ^ 2) / M) ∧
      (r = none ↔ ∀ a b j, X a j = X b j) ∧
      ∀ r', r = some r' → ∀ i, r' i * ((∑ j, ∑ a, (X a j - columnMean X j) ^ 2) / M) = e i := by
  obtain ⟨f, T, h1, h2, h3, h4, h5, -, h6, -, h7⟩ := C87_components hd X s.iters s.normalizer Q hM hKM hn hinv
  have hT : T = X * f.componentsᵀ := by cases h2; rfl
  rw [hT] at h6
  refine ⟨f.components, f.explained, f.ratio, f.singular, ?_, h3, h4, h5, h6, h7, ?_⟩
  · unfold program
    rw [run, step, hs, h1]
    rfl
  · intro r' hr i
    unfold TruncatedSVD.fit at h1
    rw [if_pos rfl, Res.bind_eq_ok] at h1
    obtain ⟨R, -, h1⟩ := h1
    cases h1
    dsimp only at hr ⊢
    split at hr
    · cases hr
    · rename_i h0
      cases hr
      have hv : (∑ j, ∑ a, (X a j - columnMean X j) ^ 2) / (M : ℝ) = ∑ j, TruncatedSVD.varCols X j := by
        rw [Finset.sum_div]
        exact Finset.sum_congr rfl fun j _ => (TruncatedSVD.varCols_eq hM X j).symm
      rw [hv]
      exact div_mul_cancel₀ _ h0

/-- Example for the answers after fitting. -/
example : ∃ dec : TruncatedSVD.Decompositions, dec.Correct ∧ exampleSettings.solver = "randomized" ∧
    (exampleSettings.iters = 0 ∨ exampleSettings.normalizer ∈ ["None", "LU", "QR"]) ∧ 0 < 3 ∧ 1 + 1 ≤ 3 ∧
    (0 < exampleSettings.iters ∧ exampleSettings.normalizer ≠ "None") := by
  obtain ⟨dec, hd⟩ := TruncatedSVD.exists_correct
  exact ⟨dec, hd, rfl, .inr (by simp [exampleSettings]), by norm_num, by norm_num, by simp [exampleSettings], by simp [exampleSettings]⟩

/-- C168: with a normalised power iteration, what a program sees does not depend on the random numbers if for all data with enough samples
given to `fit` the requested singular values are positive and occur once. -/
theorem C168_draws {k p d : Nat} (dec : TruncatedSVD.Decompositions) (hd : dec.Correct) (s : Settings) (hs : s.solver = "randomized")
    (hn : s.normalizer ∈ ["LU", "QR"]) (hi : 0 < s.iters) (hd0 : 0 < d) (cs cs' : List (Call k p d))
    (hsame : List.Forall₂ SameButDraws cs cs') (hM : ∀ M X Q, Call.fit M X Q ∈ cs → 0 < M)
    (hX : ∀ M X Q, Call.fit M X Q ∈ cs → k + p ≤ M → LeadingDistinct k X) : program dec s cs = program dec s cs' := by
  have key : ∀ st, run dec s st cs = run dec s st cs' := by
    induction hsame with
    | nil => intro st; rfl
    | @cons c c' cs cs' h1 h2 ih =>
      intro st
      have h3 : step dec s st c = step dec s st c' := by
        cases h1 with
        | fit M X Q Q' =>
          rw [step, step, (fit_draws hd hs hn hi hd0 (hM M X Q (by simp)) X Q Q').1 (hX M X Q (by simp))]
        | other c h => rfl
      have ih := ih (fun M X Q hm => hM M X Q (List.mem_cons_of_mem _ hm)) (fun M X Q hm => hX M X Q (List.mem_cons_of_mem _ hm))
      rw [run, run, h3]
      simp only [ih]
  unfold program
  rw [key]

/-- Example: two programs with different random numbers. -/
example : ∃ dec : TruncatedSVD.Decompositions, dec.Correct ∧ exampleSettings.normalizer ∈ ["LU", "QR"] ∧ 0 < exampleSettings.iters ∧
    List.Forall₂ SameButDraws (exampleCalls 1) (exampleCalls 0) ∧
    ∀ M X Q, Call.fit M X Q ∈ exampleCalls 1 → 0 < M ∧ (1 + 1 ≤ M → LeadingDistinct 1 X) := by
  obtain ⟨dec, hd⟩ := TruncatedSVD.exists_correct
  refine ⟨dec, hd, by simp [exampleSettings], by simp [exampleSettings], ?_, ?_⟩
  · exact .cons (.other _ (by simp)) (.cons (.fit _ _ _ _) (.cons (.fit _ _ _ _) (.cons (.other _ (by simp)) .nil)))
  · intro M X Q h
    refine ⟨(exampleCalls_defined dec hd 1 [] (.inl rfl)).1 M X Q (by simpa using h), fun h2 => ?_⟩
    unfold exampleCalls at h
    rcases List.mem_cons.mp h with h | h
    · cases h
    rcases List.mem_cons.mp h with h | h
    · cases h
      exact exampleSvdData_distinct
    rcases List.mem_cons.mp h with h | h
    · cases h
      omega
    · simp at h

/-- C168: with a normalised power iteration the singular values that a program reads do not depend on the random numbers, whatever the
data. -/
theorem C168_singular {k p d : Nat} (dec : TruncatedSVD.Decompositions) (hd : dec.Correct) (s : Settings) (hs : s.solver = "randomized")
    (hn : s.normalizer ∈ ["LU", "QR"]) (hi : 0 < s.iters) (hd0 : 0 < d) (cs cs' : List (Call k p d))
    (hsame : List.Forall₂ SameButDraws cs cs') (hM : ∀ M X Q, Call.fit M X Q ∈ cs → 0 < M) (seen : List (Seen k d))
    (h : program dec s (cs ++ [.singularValues]) = .ok seen) :
    ∃ seen', program dec s (cs' ++ [.singularValues]) = .ok seen' ∧ seen'.getLast? = seen.getLast? := by
  have key : ∀ st st', Option.map TruncatedSVD.Fitted.singular st = Option.map TruncatedSVD.Fitted.singular st' → ∀ st1 seen1,
      run dec s st cs = .ok (st1, seen1) → ∃ st1' seen1', run dec s st' cs' = .ok (st1', seen1') ∧
        Option.map TruncatedSVD.Fitted.singular st1 = Option.map TruncatedSVD.Fitted.singular st1' := by
    clear h
    induction hsame with
    | nil => rintro st st' he st1 seen1 h; cases h; exact ⟨st', [], rfl, he⟩
    | @cons c c' cs cs' h1 h2 ih =>
      intro st st' he st1 seen1 h
      have ih := ih (fun M X Q hm => hM M X Q (List.mem_cons_of_mem _ hm))
      rw [run, Res.bind_eq_ok] at h
      obtain ⟨⟨st2, a⟩, h3, h⟩ := h
      obtain ⟨⟨st3, b⟩, h4, h⟩ := Res.bind_eq_ok.mp h
      cases h
      have hstep : ∃ st2' a', step dec s st' c' = .ok (st2', a') ∧
          Option.map TruncatedSVD.Fitted.singular st2 = Option.map TruncatedSVD.Fitted.singular st2' := by
        cases h1 with
        | fit M X Q Q' =>
          rw [step] at h3
          rw [step]
          rcases (fit_draws hd hs hn hi hd0 (hM M X Q (by simp)) X Q Q').2 with h5 | ⟨f, f', h5, h6, h7⟩
          · rw [← h5]
            split at h3 <;> rename_i h8 <;> cases h3
            · exact ⟨_, _, rfl, rfl⟩
            · exact ⟨_, _, rfl, he⟩
          · rw [h5] at h3
            cases h3
            rw [h6]
            exact ⟨_, _, rfl, by simp [h7]⟩
        | other c h =>
          cases c with
          | fit M X Q => exact absurd rfl (h M X Q)
          | transform m Z =>
            cases st with
            | none => cases h3
            | some f =>
              cases st' with
              | none => cases he
              | some f' =>
                cases h3
                exact ⟨_, _, rfl, he⟩
          | _ => cases h3; exact ⟨_, _, rfl, he⟩
      obtain ⟨st2', a', h5, h6⟩ := hstep
      obtain ⟨st1', seen1', h7, h8⟩ := ih st2 st2' h6 _ _ h4
      refine ⟨st1', a' :: seen1', ?_, h8⟩
      rw [run, h5, Res.bind_ok, h7]
      rfl
  obtain ⟨st1, seen1, st2, a, h1, h2, rfl⟩ := program_snoc.mp h
  obtain ⟨st1', seen1', h3, h4⟩ := key none none rfl _ _ h1
  cases h2
  refine ⟨_, program_snoc.mpr ⟨st1', seen1', _, _, h3, rfl, rfl⟩, ?_⟩
  rw [List.getLast?_concat, List.getLast?_concat]
  cases st1 <;> cases st1' <;> simp_all [getter]

/-- Example: two programs with different random numbers. -/
example : ∃ dec : TruncatedSVD.Decompositions, dec.Correct ∧ exampleSettings.normalizer ∈ ["LU", "QR"] ∧ 0 < exampleSettings.iters ∧
    List.Forall₂ SameButDraws (exampleCalls 1) (exampleCalls 0) ∧ (∀ M X Q, Call.fit M X Q ∈ exampleCalls 1 → 0 < M) ∧
    ∃ seen, program dec exampleSettings (exampleCalls 1 ++ [.singularValues]) = .ok seen := by
  obtain ⟨dec, hd⟩ := TruncatedSVD.exists_correct
  obtain ⟨h1, h2⟩ := exampleCalls_defined dec hd 1 [.singularValues] (.inr (.inl rfl))
  refine ⟨dec, hd, by simp [exampleSettings], by simp [exampleSettings], ?_, fun M X Q h => h1 M X Q (List.mem_append_left _ h), h2⟩
  exact .cons (.other _ (by simp)) (.cons (.fit _ _ _ _) (.cons (.fit _ _ _ _) (.cons (.other _ (by simp)) .nil)))

/-- C168: with another solver name every call of `fit` returns, nothing is ever computed, and `transform` is never defined. -/
theorem C168_unknown_solver {k p d : Nat} (dec : TruncatedSVD.Decompositions) (s : Settings) (hs : s.solver ≠ "randomized")
    (cs : List (Call k p d)) :
    ((∃ m Z, Call.transform m Z ∈ cs) → program dec s cs = .ub) ∧
    ((∀ m Z, Call.transform m Z ∉ cs) → ∃ seen, program dec s cs = .ok seen ∧ seen.length = cs.length ∧ ∀ a ∈ seen, a = .done ∨ a = .empty) := by
  have hfit : ∀ M (X : Matrix (Fin M) (Fin d) ℝ) (Q : Matrix (Fin d) (Fin (k + p)) ℝ),
      TruncatedSVD.fit dec s.solver X k p s.iters s.normalizer Q = .ok none := fun M X Q => by
    unfold TruncatedSVD.fit
    rw [if_neg hs]
  have key : ((∃ m Z, Call.transform m Z ∈ cs) → run dec s none cs = .ub) ∧
      ((∀ m Z, Call.transform m Z ∉ cs) → ∃ seen, run dec s none cs = .ok (none, seen) ∧ seen.length = cs.length ∧
        ∀ a ∈ seen, a = .done ∨ a = .empty) := by
    induction cs with
    | nil => exact ⟨fun ⟨m, Z, h⟩ => by simp at h, fun _ => ⟨[], rfl, rfl, by simp⟩⟩
    | cons c cs ih =>
      have hgo : ∀ a, step dec s none c = .ok (none, a) → a = .done ∨ a = .empty → (∀ m Z, c ≠ Call.transform m Z) →
          (((∃ m Z, Call.transform m Z ∈ c :: cs) → run dec s none (c :: cs) = .ub) ∧
          ((∀ m Z, Call.transform m Z ∉ c :: cs) → ∃ seen, run dec s none (c :: cs) = .ok (none, seen) ∧
            seen.length = (c :: cs).length ∧ ∀ a ∈ seen, a = .done ∨ a = .empty)) := by
        intro a h1 h2 h3
        constructor
        · rintro ⟨m, Z, h⟩
          rcases List.mem_cons.mp h with h | h
          · exact absurd h.symm (h3 m Z)
          · rw [run, h1, Res.bind_ok, ih.1 ⟨m, Z, h⟩]
            rfl
        · intro h
          obtain ⟨seen, h4, h5, h6⟩ := ih.2 fun m Z hm => h m Z (List.mem_cons_of_mem _ hm)
          refine ⟨a :: seen, ?_, by simp [h5], ?_⟩
          · rw [run, h1, Res.bind_ok, h4]
            rfl
          · intro b hb
            rcases List.mem_cons.mp hb with rfl | hb
            · exact h2
            · exact h6 b hb
      cases c with
      | fit M X Q => exact hgo .done (by rw [step, hfit]) (.inl rfl) (by simp)
      | transform m Z =>
        constructor
        · intro _
          rfl
        · intro h
          exact absurd (by simp) (h m Z)
      | _ => exact hgo .empty rfl (.inr rfl) (by simp)
  unfold program
  constructor
  · intro h
    rw [key.1 h]
    rfl
  · intro h
    obtain ⟨seen, h1, h2, h3⟩ := key.2 h
    rw [h1]
    exact ⟨seen, rfl, h2, h3⟩

/-- Example: a misspelt name. -/
example : (⟨4, "LU", "randomised"⟩ : Settings).solver ≠ "randomized" ∧ (∃ m Z, Call.transform m Z ∈ exampleCalls 1) ∧
    ∀ m Z, Call.transform m Z ∉ ([.fit 3 exampleSvdData 1, .components] : List (Call 1 1 2)) :=
  ⟨by decide, ⟨1, !![5, 6], by simp [exampleCalls]⟩, by simp⟩

end OpenML
