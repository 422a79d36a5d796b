import Mathlib.Tactic.IntervalCases
import Mathlib.Tactic.NormNum
import Mathlib.Tactic.Ring
import Mathlib.Tactic.FieldSimp
import Mathlib.Data.Nat.Digits.Lemmas
import Verif.Model.Text
import Verif.Spec.Text

/-!
# Lemmas on reading numbers from text
-/

namespace OpenML.Text

open Spec

theorem char_eq_ofNat {c : Char} {n : Nat} (h : c.toNat = n) : c = Char.ofNat n := by
  rw [← h, Char.ofNat_toNat]

theorem isSpace_iff (c : Char) : isSpace c = true ↔ Blank c := by
  unfold isSpace Blank
  simp only [Bool.or_eq_true, beq_iff_eq, List.mem_cons, List.not_mem_nil, or_false]
  constructor
  · rintro (((((h | h) | h) | h) | h) | h)
    · simp [h]
    · simp [h]
    · simp [h]
    · simp [h]
    · simp [char_eq_ofNat h]
    · simp [char_eq_ofNat h]
  · rintro (rfl | rfl | rfl | rfl | rfl | rfl) <;> decide

theorem isDigit_iff (c : Char) : isDigit c = true ↔ IsDigit c := by
  unfold isDigit IsDigit
  simp only [Bool.and_eq_true, decide_eq_true_eq]
  constructor
  · rintro ⟨h1, h2⟩
    generalize hn : c.toNat = n at h1 h2
    rw [char_eq_ofNat hn]
    interval_cases n <;> decide
  · intro h
    have : ∀ d ∈ "0123456789".toList, 48 ≤ d.toNat ∧ d.toNat ≤ 57 := by decide
    exact this c h

theorem natOf_eq (s : List Char) : natOf s = Nat.ofDigits 10 (s.reverse.map fun c => c.toNat - '0'.toNat) := by
  induction s using List.reverseRecOn with
  | nil => rfl
  | append_singleton s c ih =>
    rw [natOf, List.foldl_append, List.reverse_append]
    simp only [List.foldl_cons, List.foldl_nil, List.reverse_cons, List.reverse_nil, List.nil_append, List.singleton_append, List.map_cons,
      Nat.ofDigits_cons]
    rw [← ih, natOf]
    change _ = (c.toNat - 48) + _
    push_cast
    ring

theorem takeWhile_append_of {p : Char → Bool} {s rest : List Char} (hs : ∀ c ∈ s, p c = true) (hr : ∀ c, rest.head? = some c → p c = false) :
    (s ++ rest).takeWhile p = s ∧ (s ++ rest).dropWhile p = rest := by
  have h1 : rest.takeWhile p = [] ∧ rest.dropWhile p = rest := by
    cases rest with
    | nil => simp
    | cons c t =>
      have := hr c rfl
      simp [this]
  constructor
  · rw [List.takeWhile_append_of_pos hs, h1.1, List.append_nil]
  · rw [List.dropWhile_append_of_pos hs, h1.2]

/-- What may follow a number: a blank, a comma, or nothing. -/
def Ends (rest : List Char) : Prop := ∀ c, rest.head? = some c → Blank c ∨ c = ','

theorem not_digit_of_ends {rest : List Char} (h : Ends rest) : ∀ c, rest.head? = some c → isDigit c = false := by
  intro c hc
  rcases h c hc with h | rfl
  · unfold Blank at h
    simp only [List.mem_cons, List.not_mem_nil, or_false] at h
    rcases h with rfl | rfl | rfl | rfl | rfl | rfl <;> decide
  · decide

theorem ends_ne {rest : List Char} (h : Ends rest) : ∀ c, rest.head? = some c → c ≠ '.' ∧ c ≠ 'e' ∧ c ≠ 'E' := by
  intro c hc
  rcases h c hc with h | rfl
  · unfold Blank at h
    simp only [List.mem_cons, List.not_mem_nil, or_false] at h
    rcases h with rfl | rfl | rfl | rfl | rfl | rfl <;> decide
  · decide

theorem digit_facts {c : Char} (h : IsDigit c) : ¬ Blank c ∧ c ≠ '-' ∧ c ≠ '+' ∧ c ≠ '.' ∧ c ≠ 'e' ∧ c ≠ 'E' ∧ c ≠ '\n' := by
  have : ∀ d ∈ "0123456789".toList, d ∉ [' ', '\t', '\n', '\r', Char.ofNat 11, Char.ofNat 12] ∧ d ≠ '-' ∧ d ≠ '+' ∧ d ≠ '.' ∧ d ≠ 'e' ∧
      d ≠ 'E' ∧ d ≠ '\n' := by decide
  exact this c h

theorem splitSign_other {c : Char} {t : List Char} (h1 : c ≠ '-') (h2 : c ≠ '+') : splitSign (c :: t) = (false, c :: t) := by
  rw [splitSign, if_neg h1, if_neg h2]

/-- The sign in front of a text whose first character is no sign. -/
theorem splitSign_sign {sg t : List Char} {f : Int} (hs : Sign sg f) (ht : ∀ c, t.head? = some c → c ≠ '-' ∧ c ≠ '+') :
    splitSign (sg ++ t) = (decide (f = -1), t) := by
  rcases hs with ⟨rfl, rfl⟩ | ⟨rfl, rfl⟩ | ⟨rfl, rfl⟩
  · cases t with
    | nil => rfl
    | cons c t =>
      obtain ⟨h1, h2⟩ := ht c rfl
      rw [List.nil_append, splitSign_other h1 h2]
      rfl
  · rfl
  · rfl

theorem scanInt_text (ty : IntType) {sg ds rest : List Char} {f : Int} {n : Nat} (hs : Sign sg f) (hd : Digits ds n)
    (hr : ∀ c, rest.head? = some c → isDigit c = false) :
    scanInt ty (sg ++ ds ++ rest) = ((ty.convert (decide (f = -1)) n).1, (ty.convert (decide (f = -1)) n).2, rest) := by
  obtain ⟨hne, hdig, rfl⟩ := hd
  have h1 := takeWhile_append_of (p := isDigit) (fun c hc => (isDigit_iff c).mpr (hdig c hc)) hr
  unfold scanInt
  dsimp only
  rw [List.append_assoc, splitSign_sign hs]
  · dsimp only
    rw [h1.1, h1.2, if_neg hne, natOf_eq]
  · intro c hc
    cases ds with
    | nil => exact absurd rfl hne
    | cons d ds =>
      cases hc
      have := digit_facts (hdig c (List.mem_cons_self ..))
      exact ⟨this.2.1, this.2.2.1⟩

theorem dropWhile_blank {b t : List Char} (hb : ∀ c ∈ b, Blank c) : (b ++ t).dropWhile isSpace = t.dropWhile isSpace :=
  List.dropWhile_append_of_pos fun c hc => (isSpace_iff c).mpr (hb c hc)

theorem dropWhile_not_blank {c : Char} {t : List Char} (h : ¬ Blank c) : (c :: t).dropWhile isSpace = c :: t := by
  rw [List.dropWhile_cons_of_neg]
  rwa [isSpace_iff]

theorem extract_blank {α : Type} (R : Reader α) {b : List Char} (hb : ∀ c ∈ b, Blank c) : extract R b = (none, false, []) := by
  unfold extract
  have := dropWhile_blank (t := []) hb
  rw [List.append_nil] at this
  rw [this]
  rfl

theorem extract_scan {α : Type} (R : Reader α) {b t : List Char} {c : Char} (hb : ∀ c ∈ b, Blank c) (hc : ¬ Blank c) :
    extract R (b ++ c :: t) = (some (R.scan (c :: t)).1, (R.scan (c :: t)).2) := by
  unfold extract
  rw [dropWhile_blank hb, dropWhile_not_blank hc]

theorem readLine_fail {α : Type} (R : Reader α) {s : List Char} (h : (extract R s).2.1 = false) : readLine R s = [] := by
  rw [readLine, dif_neg (by rw [h]; decide)]

theorem readLine_step {α : Type} (R : Reader α) {s rest : List Char} {a : α} (h : extract R s = (some a, true, rest)) :
    readLine R s = a :: readLine R rest := by
  rw [readLine, dif_pos (by rw [h])]
  simp only [h]

/-- A reader that reads the texts of `T`. -/
structure Reads {α : Type} (R : Reader α) (T : List Char → α → Prop) : Prop where
  start : ∀ s a, T s a → ∃ c t, s = c :: t ∧ ¬ Blank c
  scan : ∀ s a rest, T s a → Ends rest → R.scan (s ++ rest) = (a, true, rest)
  comma : ∀ t, (R.scan (',' :: t)).2.1 = false

theorem Reads.extract {α : Type} {R : Reader α} {T : List Char → α → Prop} (h : Reads R T) {b s rest : List Char} {a : α}
    (hb : ∀ c ∈ b, Blank c) (hs : T s a) (hr : Ends rest) : extract R (b ++ s ++ rest) = (some a, true, rest) := by
  obtain ⟨c, t, rfl, hc⟩ := h.start s a hs
  rw [List.append_assoc, List.cons_append, extract_scan R hb hc, ← List.cons_append, h.scan _ a rest hs hr]

theorem Reads.readLine {α : Type} {R : Reader α} {T : List Char → α → Prop} (h : Reads R T) {s : List Char} {l : List α}
    (hs : LineText T s l) : readLine R s = l := by
  induction hs with
  | done hb => exact readLine_fail R (by rw [extract_blank R hb])
  | number hb ht _ hr ih => rw [readLine_step R (h.extract hb ht fun c hc => Or.inl (hr c hc)), ih]

theorem lines_line {s rest : List Char} (h : '\n' ∉ s) : lines (s ++ '\n' :: rest) = s :: lines rest := by
  induction s with
  | nil => simp [lines]
  | cons c s ih =>
    simp only [List.mem_cons, not_or] at h
    rw [List.cons_append, lines, if_neg (Ne.symm h.1), ih h.2]

theorem lines_last {s : List Char} (hne : s ≠ []) (h : '\n' ∉ s) : lines s = [s] := by
  induction s with
  | nil => exact absurd rfl hne
  | cons c s ih =>
    simp only [List.mem_cons, not_or] at h
    rw [lines, if_neg (Ne.symm h.1)]
    cases s with
    | nil => rfl
    | cons d s => rw [ih (by simp) h.2]

theorem Reads.table {α : Type} {R : Reader α} {T : List Char → α → Prop} (h : Reads R T) {s : List Char} {t : List (List α)}
    (hs : TableText T s t) : table R (some s) = some t := by
  unfold Text.table
  rw [Option.map_some]
  congr 1
  induction hs with
  | done => rfl
  | last hne hn hl => rw [lines_last hne hn, List.map_cons, h.readLine hl, List.map_nil]
  | line hn hl _ ih => rw [lines_line hn, List.map_cons, h.readLine hl, ih]

theorem sign_start {sg ds : List Char} {f : Int} (hs : Sign sg f) (hd : ∃ c t, ds = c :: t ∧ ¬ Blank c) : ∃ c t, sg ++ ds = c :: t ∧ ¬ Blank c := by
  rcases hs with ⟨rfl, _⟩ | ⟨rfl, _⟩ | ⟨rfl, _⟩
  · simpa using hd
  · exact ⟨'+', ds, rfl, by unfold Blank; decide⟩
  · exact ⟨'-', ds, rfl, by unfold Blank; decide⟩

theorem intText_start {s : List Char} {z : Int} (h : IntText s z) : ∃ c t, s = c :: t ∧ ¬ Blank c := by
  obtain ⟨sg, ds, f, n, rfl, hs, hd, -⟩ := h
  refine sign_start hs ?_
  obtain ⟨hne, hdig, -⟩ := hd
  cases ds with
  | nil => exact absurd rfl hne
  | cons c t => exact ⟨c, t, rfl, (digit_facts (hdig c (List.mem_cons_self ..))).1⟩

theorem scanInt_comma (ty : IntType) (t : List Char) : (scanInt ty (',' :: t)).2.1 = false := by
  unfold scanInt
  dsimp only
  rw [splitSign_other (by decide) (by decide)]
  have : isDigit ',' = false := by decide
  simp [this]

theorem convert_signed {lo hi : Int} {f : Int} {n : Nat} (hf : f = 1 ∨ f = -1) (h : lo ≤ f * n ∧ f * n ≤ hi) :
    (IntType.signed lo hi).convert (decide (f = -1)) n = (f * n, true) := by
  have hv : (if decide (f = -1) = true then -(n : Int) else n) = f * n := by
    rcases hf with rfl | rfl <;> simp
  unfold IntType.convert
  dsimp only
  rw [hv, if_neg (by omega), if_neg (by omega)]

theorem sign_cases {sg : List Char} {f : Int} (h : Sign sg f) : f = 1 ∨ f = -1 := by
  rcases h with ⟨_, rfl⟩ | ⟨_, rfl⟩ | ⟨_, rfl⟩ <;> simp

theorem reads_signed (lo hi : Int) : Reads (intReader (.signed lo hi)) fun s z => IntText s z ∧ lo ≤ z ∧ z ≤ hi := by
  refine ⟨fun s a h => intText_start h.1, ?_, fun t => scanInt_comma (.signed lo hi) t⟩
  rintro s a rest ⟨⟨sg, ds, f, n, rfl, hs, hd, rfl⟩, hr1, hr2⟩ hr
  change scanInt _ _ = _
  rw [scanInt_text _ hs hd (not_digit_of_ends hr), convert_signed (sign_cases hs) ⟨hr1, hr2⟩]

theorem reads_unsigned (max : Nat) : Reads (intReader (.unsigned max)) fun s z => IntText s z ∧ 0 ≤ z ∧ z ≤ max := by
  refine ⟨fun s a h => intText_start h.1, ?_, fun t => scanInt_comma (.unsigned max) t⟩
  rintro s a rest ⟨⟨sg, ds, f, n, rfl, hs, hd, rfl⟩, hr1, hr2⟩ hr
  change scanInt _ _ = _
  rw [scanInt_text _ hs hd (not_digit_of_ends hr)]
  rcases sign_cases hs with rfl | rfl
  · simp only [IntType.convert, one_mul] at hr1 hr2 ⊢
    rw [if_neg (by omega), if_neg (by simp)]
  · have : n = 0 := by omega
    subst this
    simp [IntType.convert]

/-! ## decimals -/

theorem splitFraction_other {t : List Char} (h : ∀ c, t.head? = some c → c ≠ '.') : splitFraction t = ([], t) := by
  cases t with
  | nil => rfl
  | cons c t => rw [splitFraction, if_neg (h c rfl)]

theorem splitExponent_other {t : List Char} (h : ∀ c, t.head? = some c → c ≠ 'e' ∧ c ≠ 'E') : splitExponent t = (none, t) := by
  cases t with
  | nil => rfl
  | cons c t =>
    have := h c rfl
    rw [splitExponent, if_neg (by tauto)]

theorem exp_head {ex rest : List Char} {z : Int} (h : ExpText ex z) (hr : Ends rest) :
    ∀ c, (ex ++ rest).head? = some c → isDigit c = false ∧ c ≠ '.' ∧ c ≠ '-' ∧ c ≠ '+' := by
  intro c hc
  rcases h with ⟨rfl, -⟩ | ⟨d, t, hd, -, rfl⟩
  · refine ⟨not_digit_of_ends hr c hc, (ends_ne hr c hc).1, ?_⟩
    rcases hr c hc with h | rfl
    · unfold Blank at h
      simp only [List.mem_cons, List.not_mem_nil, or_false] at h
      rcases h with rfl | rfl | rfl | rfl | rfl | rfl <;> decide
    · decide
  · cases hc
    rcases hd with rfl | rfl <;> decide

/-- The value of a mantissa with the exponent found by `splitExponent`. -/
theorem exp_value {ex rest : List Char} {z : Int} (h : ExpText ex z) (hr : Ends rest) :
    (splitExponent (ex ++ rest) = (none, rest) ∧ z = 0) ∨ ∃ neg ds, splitExponent (ex ++ rest) = (some (neg, ds), rest) ∧ ds ≠ [] ∧
      ∀ m : ℚ, (if neg = true then m / 10 ^ natOf ds else m * 10 ^ natOf ds) = m * (10 : ℚ) ^ z := by
  rcases h with ⟨rfl, rfl⟩ | ⟨c, t, hc, ⟨sg, ds, f, n, rfl, hs, hd, rfl⟩, rfl⟩
  · exact Or.inl ⟨splitExponent_other fun c hc => (ends_ne hr c hc).2, rfl⟩
  · obtain ⟨hne, hdig, hn⟩ := hd
    have h1 := takeWhile_append_of (p := isDigit) (fun c hc => (isDigit_iff c).mpr (hdig c hc)) (not_digit_of_ends hr)
    have h2 : splitExponent (c :: (sg ++ ds) ++ rest) = (some (decide (f = -1), ds), rest) := by
      rw [List.cons_append, splitExponent, if_pos hc, List.append_assoc, splitSign_sign hs]
      · dsimp only
        rw [h1.1, h1.2]
      · intro c hc
        cases ds with
        | nil => exact absurd rfl hne
        | cons d ds =>
          cases hc
          have := digit_facts (hdig c (List.mem_cons_self ..))
          exact ⟨this.2.1, this.2.2.1⟩
    refine Or.inr ⟨_, ds, h2, hne, fun m => ?_⟩
    rw [natOf_eq, ← hn]
    rcases sign_cases hs with rfl | rfl
    · rw [one_mul, zpow_natCast]
      simp
    · rw [neg_one_mul, zpow_neg, zpow_natCast]
      simp [div_eq_mul_inv]

theorem scanDec_text {s rest : List Char} {q : ℚ} (h : DecText s q) (hr : Ends rest) : scanDec (s ++ rest) = (q, true, rest) := by
  obtain ⟨sg, whole, frac, ex, f, z, n, hs, ⟨hne, hdig, hn⟩, he, hform, rfl⟩ := h
  have hw : ∀ c ∈ whole, isDigit c = true := fun c hc => (isDigit_iff c).mpr (hdig c (List.mem_append_left _ hc))
  have hf : ∀ c ∈ frac, isDigit c = true := fun c hc => (isDigit_iff c).mpr (hdig c (List.mem_append_right _ hc))
  have hhead := exp_head he hr
  obtain ⟨tail, e1, e2, e3, e4⟩ : ∃ tail, s ++ rest = sg ++ (whole ++ tail) ∧ (∀ c, tail.head? = some c → isDigit c = false) ∧
      (∀ c, tail.head? = some c → c ≠ '-' ∧ c ≠ '+') ∧ splitFraction tail = (frac, ex ++ rest) := by
    rcases hform with rfl | ⟨rfl, rfl⟩
    · refine ⟨'.' :: frac ++ (ex ++ rest), by simp, ?_, ?_, ?_⟩
      · intro c hc
        cases hc
        decide
      · intro c hc
        cases hc
        decide
      · have := takeWhile_append_of hf fun c hc => (hhead c hc).1
        rw [List.cons_append, splitFraction, if_pos rfl, this.1, this.2]
    · exact ⟨ex ++ rest, by simp, fun c hc => (hhead c hc).1, fun c hc => (hhead c hc).2.2, splitFraction_other fun c hc => (hhead c hc).2.1⟩
  have h1 := takeWhile_append_of hw e2
  unfold scanDec
  dsimp only
  rw [e1, splitSign_sign hs]
  · dsimp only
    rw [h1.1, h1.2, e4]
    dsimp only
    rw [if_neg hne, natOf_eq, ← hn]
    have hm : (if decide (f = -1) = true then (-1 : ℚ) else 1) = f := by
      rcases sign_cases hs with rfl | rfl <;> simp
    rw [hm]
    rcases exp_value he hr with ⟨h2, rfl⟩ | ⟨neg, ds, h2, h3, h4⟩
    · rw [h2]
      simp
    · rw [h2]
      dsimp only
      rw [if_neg h3, h4]
  · intro c hc
    cases whole with
    | nil => exact e3 c hc
    | cons d ds =>
      cases hc
      have := digit_facts (hdig c (by simp))
      exact ⟨this.2.1, this.2.2.1⟩

theorem decText_start {s : List Char} {q : ℚ} (h : DecText s q) : ∃ c t, s = c :: t ∧ ¬ Blank c := by
  obtain ⟨sg, whole, frac, ex, f, z, n, hs, ⟨hne, hdig, hn⟩, he, hform, rfl⟩ := h
  have key : ∃ tail c t, s = sg ++ tail ∧ tail = c :: t ∧ ¬ Blank c := by
    cases whole with
    | cons d ds =>
      have hd := (digit_facts (hdig d (by simp))).1
      rcases hform with rfl | ⟨rfl, rfl⟩
      · exact ⟨_, d, ds ++ '.' :: frac ++ ex, by simp; rfl, by simp, hd⟩
      · exact ⟨_, d, ds ++ ex, by simp; rfl, by simp, hd⟩
    | nil =>
      rcases hform with rfl | ⟨rfl, rfl⟩
      · exact ⟨_, '.', frac ++ ex, by simp; rfl, by simp, by unfold Blank; decide⟩
      · exact absurd rfl hne
  obtain ⟨tail, c, t, rfl, hc⟩ := key
  exact sign_start hs ⟨c, t, hc⟩

theorem scanDec_comma (t : List Char) : (scanDec (',' :: t)).2.1 = false := by
  unfold scanDec
  dsimp only
  rw [splitSign_other (by decide) (by decide)]
  have : isDigit ',' = false := by decide
  have h2 : splitFraction (',' :: t) = ([], ',' :: t) := splitFraction_other fun c hc => by cases hc; decide
  simp [this, h2]

theorem reads_dec : Reads decReader DecText :=
  ⟨fun _ _ h => decText_start h, fun _ _ _ h hr => scanDec_text h hr, fun t => scanDec_comma t⟩

/-! ## blanks at the end of a line -/

/-- A reader that does not look beyond a blank. -/
def IgnoresTail {α : Type} (R : Reader α) : Prop :=
  ∀ (c d : Char) (t : List Char), Blank d → R.scan (c :: t ++ [d]) = ((R.scan (c :: t)).1, (R.scan (c :: t)).2.1, (R.scan (c :: t)).2.2 ++ [d])

theorem blank_facts {d : Char} (h : Blank d) : isDigit d = false ∧ d ≠ '-' ∧ d ≠ '+' ∧ d ≠ '.' ∧ d ≠ 'e' ∧ d ≠ 'E' := by
  unfold Blank at h
  simp only [List.mem_cons, List.not_mem_nil, or_false] at h
  rcases h with rfl | rfl | rfl | rfl | rfl | rfl <;> decide

theorem splitSign_tail {d : Char} (h : Blank d) (t : List Char) : splitSign (t ++ [d]) = ((splitSign t).1, (splitSign t).2 ++ [d]) := by
  cases t with
  | nil => exact splitSign_other (blank_facts h).2.1 (blank_facts h).2.2.1
  | cons c t =>
    rw [List.cons_append, splitSign, splitSign]
    split
    · rfl
    · split <;> rfl

theorem while_tail {d : Char} (h : isDigit d = false) (t : List Char) :
    (t ++ [d]).takeWhile isDigit = t.takeWhile isDigit ∧ (t ++ [d]).dropWhile isDigit = t.dropWhile isDigit ++ [d] := by
  induction t with
  | nil => simp [h]
  | cons c t ih =>
    by_cases hc : isDigit c = true
    · simp [hc, ih.1, ih.2]
    · simp [hc]

theorem splitFraction_tail {d : Char} (h : Blank d) (t : List Char) :
    splitFraction (t ++ [d]) = ((splitFraction t).1, (splitFraction t).2 ++ [d]) := by
  cases t with
  | nil => exact splitFraction_other fun c hc => by cases hc; exact (blank_facts h).2.2.2.1
  | cons c t =>
    rw [List.cons_append, splitFraction, splitFraction]
    split
    · rw [(while_tail (blank_facts h).1 t).1, (while_tail (blank_facts h).1 t).2]
    · rfl

theorem splitExponent_tail {d : Char} (h : Blank d) (t : List Char) :
    splitExponent (t ++ [d]) = ((splitExponent t).1, (splitExponent t).2 ++ [d]) := by
  cases t with
  | nil => exact splitExponent_other fun c hc => by cases hc; exact (blank_facts h).2.2.2.2
  | cons c t =>
    rw [List.cons_append, splitExponent, splitExponent]
    split
    · dsimp only
      rw [splitSign_tail h]
      dsimp only
      rw [(while_tail (blank_facts h).1 _).1, (while_tail (blank_facts h).1 _).2]
    · rfl

theorem int_ignoresTail (ty : IntType) : IgnoresTail (intReader ty) := by
  intro c d t h
  change scanInt ty _ = ((scanInt ty _).1, (scanInt ty _).2.1, (scanInt ty _).2.2 ++ [d])
  unfold scanInt
  dsimp only
  rw [splitSign_tail h]
  dsimp only
  rw [(while_tail (blank_facts h).1 _).1, (while_tail (blank_facts h).1 _).2]
  split <;> rfl

theorem dec_ignoresTail : IgnoresTail decReader := by
  intro c d t h
  change scanDec _ = ((scanDec _).1, (scanDec _).2.1, (scanDec _).2.2 ++ [d])
  unfold scanDec
  dsimp only
  rw [splitSign_tail h]
  dsimp only
  rw [(while_tail (blank_facts h).1 _).1, (while_tail (blank_facts h).1 _).2, splitFraction_tail h]
  dsimp only
  rw [splitExponent_tail h]
  dsimp only
  split
  · rfl
  · split
    · rfl
    · split <;> rfl

theorem readLine_tail {α : Type} (R : Reader α) (hR : IgnoresTail R) {d : Char} (hd : Blank d) (s : List Char) :
    readLine R (s ++ [d]) = readLine R s := by
  induction hn : s.length using Nat.strong_induction_on generalizing s with
  | _ n ih =>
    have hdrop : (s ++ [d]).dropWhile isSpace = match s.dropWhile isSpace with
        | [] => []
        | c :: t => c :: t ++ [d] := by
      clear hn ih
      induction s with
      | nil => simp [(isSpace_iff d).mpr hd]
      | cons c s ihs =>
        by_cases hc : isSpace c = true
        · simpa [hc] using ihs
        · simp [hc]
    cases e : s.dropWhile isSpace with
    | nil =>
      rw [e] at hdrop
      rw [readLine_fail, readLine_fail]
      · unfold extract; rw [e]
      · unfold extract; rw [hdrop]
    | cons c t =>
      rw [e] at hdrop
      have e1 : extract R s = (some (R.scan (c :: t)).1, (R.scan (c :: t)).2) := by unfold extract; rw [e]
      have e2 : extract R (s ++ [d]) = (some (R.scan (c :: t)).1, (R.scan (c :: t)).2.1, (R.scan (c :: t)).2.2 ++ [d]) := by
        unfold extract
        rw [hdrop]
        have := hR c d t hd
        rw [List.cons_append] at this
        dsimp only [List.cons_append]
        rw [this]
      cases hb : (R.scan (c :: t)).2.1 with
      | false => rw [readLine_fail R (s := s) (by rw [e1]; exact hb), readLine_fail R (s := s ++ [d]) (by rw [e2]; exact hb)]
      | true =>
        have e1' : extract R s = (some (R.scan (c :: t)).1, true, (R.scan (c :: t)).2.2) := by rw [e1, ← hb]
        rw [hb] at e2
        rw [readLine_step R (s := s) e1', readLine_step R (s := s ++ [d]) e2]
        congr 1
        refine ih _ ?_ _ rfl
        have := extract_shorter R s (by rw [e1'])
        rw [e1'] at this
        dsimp only at this
        omega

theorem lines_cr (s : List Char) :
    List.Forall₂ (fun l' l => l' = l ∨ l' = l ++ ['\r']) (lines (withCarriageReturns s)) (lines s) := by
  induction s with
  | nil => exact .nil
  | cons c s ih =>
    unfold withCarriageReturns at ih ⊢
    rw [List.flatMap_cons]
    by_cases hc : c = '\n'
    · subst hc
      have : lines (['\r', '\n'] ++ s.flatMap fun c => if c = '\n' then ['\r', '\n'] else [c]) =
          ['\r'] :: lines (s.flatMap fun c => if c = '\n' then ['\r', '\n'] else [c]) := by
        rw [List.cons_append, List.cons_append, List.nil_append, lines, if_neg (by decide), lines, if_pos rfl]
      rw [if_pos rfl, this, lines, if_pos rfl]
      exact .cons (Or.inr rfl) ih
    · rw [if_neg hc]
      rw [List.singleton_append, lines, lines, if_neg hc, if_neg hc]
      cases e1 : lines (s.flatMap fun c => if c = '\n' then ['\r', '\n'] else [c]) with
      | nil =>
        rw [e1] at ih
        cases e2 : lines s with
        | nil =>
          exact List.Forall₂.cons (R := fun l' l : List Char => l' = l ∨ l' = l ++ ['\r']) (Or.inl rfl) .nil
        | cons _ _ => rw [e2] at ih; cases ih
      | cons l' ls' =>
        rw [e1] at ih
        cases e2 : lines s with
        | nil => rw [e2] at ih; cases ih
        | cons l ls =>
          rw [e2] at ih
          cases ih with
          | cons h ih =>
            refine .cons ?_ ih
            rcases h with rfl | rfl
            · exact Or.inl rfl
            · exact Or.inr rfl

end OpenML.Text
