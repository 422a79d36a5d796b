import Verif.Lemmas.Text
import Verif.Props.Data

/-!
# C158: loading tables from text
-/

namespace OpenML

open Spec Text

/-- C158: a file that shows a table of decimal numbers, with any blanks, signs, leading zeros, points and exponents, with or without a last
newline, is loaded exactly: into matrices the last column becomes the labels, into vectors the rows are appended. -/
theorem C158_decimals (text : List Char) (t : List (List ℚ × ℚ)) (m : Nat) (hne : t ≠ []) (hm : ∀ r ∈ t, r.1.length = m)
    (ht : TableText DecText text (t.map fun r => r.1 ++ [r.2])) :
    Data.loadtxtMat (table decReader (some text)) = .ok (⟨m, t.map Prod.fst⟩, t.map Prod.snd) ∧
    (∀ X, Data.loadtxtRows (table decReader (some text)) X = .ok (X ++ t.map fun r => r.1 ++ [r.2])) ∧
    ∀ fill y, Data.loadtxtVec fill (table decReader (some text)) [] y = .ok (t.map Prod.fst, y ++ t.map Prod.snd) := by
  rw [reads_dec.table ht]
  exact ⟨C27_loadtxt_matrix t m hne hm, fun _ => rfl, fun fill y => C27_loadtxt_vectors fill t m hne hm y⟩

/-- C158: the same for integers of a signed or an unsigned type, whose numbers are all in the range of the type. Rows may have different
lengths if they are only appended, as for transactions. -/
theorem C158_integers (lo hi : Int) (max : Nat) (text : List Char) (t : List (List Int)) :
    (TableText (fun s z => IntText s z ∧ lo ≤ z ∧ z ≤ hi) text t →
      ∀ X, Data.loadtxtRows (table (intReader (.signed lo hi)) (some text)) X = .ok (X ++ t)) ∧
    (TableText (fun s z => IntText s z ∧ 0 ≤ z ∧ z ≤ max) text t →
      ∀ X, Data.loadtxtRows (table (intReader (.unsigned max)) (some text)) X = .ok (X ++ t)) := by
  refine ⟨fun h X => ?_, fun h X => ?_⟩
  · rw [(reads_signed lo hi).table h]
    rfl
  · rw [(reads_unsigned max).table h]
    rfl

/-- C158: carriage returns before the newlines change nothing, whatever the text. -/
theorem C158_carriage_returns (text : List Char) (ty : IntType) :
    table decReader (some (withCarriageReturns text)) = table decReader (some text) ∧
    table (intReader ty) (some (withCarriageReturns text)) = table (intReader ty) (some text) := by
  have key : ∀ {α : Type} (R : Reader α), IgnoresTail R → table R (some (withCarriageReturns text)) = table R (some text) := by
    intro α R hR
    unfold table
    rw [Option.map_some, Option.map_some]
    congr 1
    have := lines_cr text
    generalize lines (withCarriageReturns text) = l, lines text = l' at this
    induction this with
    | nil => rfl
    | cons h _ ih =>
      rw [List.map_cons, List.map_cons, ih]
      rcases h with rfl | rfl
      · rfl
      · rw [readLine_tail R hR (by unfold Blank; decide)]
  exact ⟨key _ dec_ignoresTail, key _ (int_ignoresTail ty)⟩

/-- C158: of a comma separated line only the first number is read, so a comma separated file loads as a table with a single column: no
features, and the first column as labels. -/
theorem C158_commas (rows : List (List Char × ℚ × List Char)) (hne : rows ≠ [])
    (h : ∀ r ∈ rows, DecText r.1 r.2.1 ∧ '\n' ∉ r.1 ∧ '\n' ∉ r.2.2) :
    Data.loadtxtMat (table decReader (some (rows.flatMap fun r => r.1 ++ ',' :: r.2.2 ++ ['\n']))) =
      .ok (⟨0, rows.map fun _ => []⟩, rows.map fun r => r.2.1) := by
  have ht : table decReader (some (rows.flatMap fun r => r.1 ++ ',' :: r.2.2 ++ ['\n'])) = some (rows.map fun r => [r.2.1]) := by
    unfold table
    rw [Option.map_some]
    congr 1
    clear hne
    induction rows with
    | nil => rfl
    | cons r rows ih =>
      obtain ⟨h1, h2, h3⟩ := h r (List.mem_cons_self ..)
      have hl : '\n' ∉ r.1 ++ ',' :: r.2.2 := by
        simp only [List.mem_append, List.mem_cons, not_or]
        exact ⟨h2, by decide, h3⟩
      have hx : extract decReader (r.1 ++ ',' :: r.2.2) = (some r.2.1, true, ',' :: r.2.2) := by
        have := reads_dec.extract (b := []) (s := r.1) (rest := ',' :: r.2.2) (by simp) h1 (fun c hc => by cases hc; exact Or.inr rfl)
        rwa [List.nil_append] at this
      have hy : readLine decReader (',' :: r.2.2) = [] := by
        refine readLine_fail _ ?_
        have := extract_scan decReader (b := []) (c := ',') (t := r.2.2) (by simp) (by unfold Blank; decide)
        rw [List.nil_append] at this
        rw [this]
        exact scanDec_comma r.2.2
      rw [List.flatMap_cons, List.append_assoc, List.singleton_append, lines_line hl, List.map_cons, List.map_cons,
        ih fun q hq => h q (List.mem_cons_of_mem _ hq), readLine_step _ hx, hy]
  rw [ht]
  have := C27_loadtxt_matrix (rows.map fun r => (([] : List ℚ), r.2.1)) 0 (by simpa using hne) (by
    intro r hr
    obtain ⟨q, _, rfl⟩ := List.mem_map.mp hr
    rfl)
  simpa [List.map_map, Function.comp_def] using this

/-- C158: a blank line after a line with numbers, for instance a second newline at the end, is a row without numbers: loading into matrices
reads out of bounds. -/
theorem C158_blank_line (text : List Char) (first : List ℚ) (rest : List (List ℚ)) (hf : first ≠ []) (hb : [] ∈ rest)
    (ht : TableText DecText text (first :: rest)) : Data.loadtxtMat (table decReader (some text)) = .ub := by
  rw [reads_dec.table ht]
  exact (C27_loadtxt_matrix_failures (α := ℚ)).2.2.2 first rest ⟨[], hb, by simpa using List.length_pos_of_ne_nil hf⟩

/-- C158: a number out of the range of a signed type ends its row: neither it nor what follows on the line is loaded. -/
theorem C158_out_of_range (lo hi : Int) (b s rest : List Char) (z : Int) (hb : ∀ c ∈ b, Blank c) (hs : IntText s z)
    (hz : z < lo ∨ hi < z) (hr : ∀ c, rest.head? = some c → ¬ IsDigit c) : readLine (intReader (.signed lo hi)) (b ++ s ++ rest) = [] := by
  obtain ⟨c, t, rfl, hc⟩ := intText_start hs
  refine readLine_fail _ ?_
  rw [List.append_assoc, List.cons_append, extract_scan _ hb hc, ← List.cons_append]
  obtain ⟨sg, ds, f, n, e, hsg, hd, rfl⟩ := hs
  rw [e]
  change (scanInt _ _).2.1 = false
  rw [scanInt_text _ hsg hd fun c hc => by rw [Bool.eq_false_iff]; exact fun h => hr c hc ((isDigit_iff c).mp h)]
  have hv : (if decide (f = -1) = true then -(n : Int) else n) = f * n := by
    rcases sign_cases hsg with rfl | rfl <;> simp
  simp only [IntType.convert, hv]
  split
  · rfl
  · rename_i h
    rw [if_pos (by omega)]

/-- C158: a negative number in a file of an unsigned type is loaded without any complaint, as the number that much below the number of
values of the type. -/
theorem C158_unsigned_negative (max : Nat) (b s : List Char) (z : Int) (hb : ∀ c ∈ b, Blank c) (hs : IntText s z) (hz : z < 0)
    (hm : -z ≤ max) : readLine (intReader (.unsigned max)) (b ++ s) = [max + 1 + z] := by
  obtain ⟨c, t, rfl, hc⟩ := intText_start hs
  have hx : extract (intReader (.unsigned max)) (b ++ c :: t) = (some (max + 1 + z), true, []) := by
    rw [extract_scan _ hb hc]
    obtain ⟨sg, ds, f, n, e, hsg, hd, rfl⟩ := hs
    have hscan : (intReader (.unsigned max)).scan (c :: t) = (max + 1 + f * n, true, []) := by
      change scanInt _ _ = _
      have := scanInt_text (.unsigned max) (rest := []) hsg hd (by simp)
      rw [List.append_nil] at this
      rw [e, this]
      rcases sign_cases hsg with rfl | rfl
      · omega
      · simp only [IntType.convert]
        rw [if_neg (by omega), if_pos (by constructor; simp; omega)]
        dsimp only
        congr 1
        ring
    rw [hscan]
  rw [readLine_step _ hx, readLine_fail]
  rw [extract_blank _ (by simp)]

/-- C158: `string_to_integer` returns the number a text begins with after blanks, cut to the range of the type; 0 if after blanks something
else follows; and an uninitialised value if there are only blanks. -/
theorem C158_string_to_integer (lo hi : Int) (hlo : lo ≤ 0) (hhi : 0 ≤ hi) (b : List Char) (hb : ∀ c ∈ b, Blank c) :
    (∀ s z rest, IntText s z → (∀ c, rest.head? = some c → ¬ IsDigit c) →
      stringToInteger (intReader (.signed lo hi)) (b ++ s ++ rest) = .ok (max lo (min hi z))) ∧
    (∀ c t, ¬ Blank c → ¬ IsDigit c → c ≠ '+' → c ≠ '-' → stringToInteger (intReader (.signed lo hi)) (b ++ c :: t) = .ok 0) ∧
    stringToInteger (intReader (.signed lo hi)) b = .ub := by
  refine ⟨fun s z rest hs hr => ?_, fun c t hc hd h1 h2 => ?_, ?_⟩
  · obtain ⟨c, t, rfl, hc⟩ := intText_start hs
    unfold stringToInteger
    rw [List.append_assoc, List.cons_append, extract_scan _ hb hc, ← List.cons_append]
    obtain ⟨sg, ds, f, n, e, hsg, hd, rfl⟩ := hs
    rw [e]
    dsimp only
    change Res.ok (scanInt _ _).1 = _
    rw [scanInt_text _ hsg hd fun c hc => by rw [Bool.eq_false_iff]; exact fun h => hr c hc ((isDigit_iff c).mp h)]
    have hv : (if decide (f = -1) = true then -(n : Int) else n) = f * n := by
      rcases sign_cases hsg with rfl | rfl <;> simp
    simp only [IntType.convert, hv]
    congr 1
    split
    · dsimp only
      omega
    · split
      · dsimp only
        omega
      · dsimp only
        omega
  · unfold stringToInteger
    rw [extract_scan _ hb hc]
    dsimp only
    change Res.ok (scanInt _ _).1 = _
    unfold scanInt
    dsimp only
    rw [splitSign_other h2 h1]
    have : isDigit c = false := by rw [Bool.eq_false_iff]; exact fun h => hd ((isDigit_iff c).mp h)
    simp [this]
  · unfold stringToInteger
    rw [extract_blank _ hb]

/-- C158: every integer and every decimal fraction has such a text, so the statements above cover all tables of them. -/
theorem C158_texts_exist : (∀ z : Int, ∃ s, IntText s z) ∧ ∀ (z : Int) (k : Nat), ∃ s, DecText s (z / (10 : ℚ) ^ k) := by
  have digit : ∀ n < 10, IsDigit (Char.ofNat (48 + n)) ∧ (Char.ofNat (48 + n)).toNat - '0'.toNat = n := by
    intro n hn
    unfold IsDigit
    interval_cases n <;> decide
  have nat : ∀ n : Nat, ∃ s, Digits s n := by
    intro n
    rcases Nat.eq_zero_or_pos n with rfl | hn
    · exact ⟨['0'], by simp, by unfold IsDigit; decide, by decide⟩
    · have hlt : ∀ d ∈ Nat.digits 10 n, d < 10 := fun d hd => Nat.digits_lt_base (by norm_num) hd
      refine ⟨((Nat.digits 10 n).map fun d => Char.ofNat (48 + d)).reverse, ?_, ?_, ?_⟩
      · simpa using Nat.digits_ne_nil_iff_ne_zero.mpr (by omega)
      · intro c hc
        simp only [List.mem_reverse, List.mem_map] at hc
        obtain ⟨d, hd, rfl⟩ := hc
        exact (digit d (hlt d hd)).1
      · rw [List.reverse_reverse, List.map_map]
        conv_lhs => rw [← Nat.ofDigits_digits 10 n]
        congr 1
        symm
        conv_rhs => rw [← List.map_id (Nat.digits 10 n)]
        exact List.map_congr_left fun d hd => (digit d (hlt d hd)).2
  have sign : ∀ z : Int, ∃ sg f, Sign sg f ∧ z = f * z.natAbs := by
    intro z
    rcases Int.natAbs_eq z with h | h
    · exact ⟨[], 1, Or.inl ⟨rfl, rfl⟩, by rw [one_mul]; exact h⟩
    · exact ⟨['-'], -1, Or.inr (Or.inr ⟨rfl, rfl⟩), by rw [neg_one_mul]; exact h⟩
  have int : ∀ z : Int, ∃ s, IntText s z := by
    intro z
    obtain ⟨sg, f, h1, h2⟩ := sign z
    obtain ⟨ds, h3⟩ := nat z.natAbs
    exact ⟨sg ++ ds, sg, ds, f, _, rfl, h1, h3, h2⟩
  refine ⟨int, fun z k => ?_⟩
  obtain ⟨sg, f, h1, h2⟩ := sign z
  obtain ⟨ds, h3⟩ := nat z.natAbs
  obtain ⟨es, h4⟩ := int (-k)
  refine ⟨sg ++ ds ++ 'e' :: es, sg, ds, [], 'e' :: es, f, -k, z.natAbs, h1, by rw [List.append_nil]; exact h3,
    Or.inr ⟨'e', es, Or.inl rfl, h4, rfl⟩, Or.inr ⟨rfl, rfl⟩, ?_⟩
  rw [zpow_neg, zpow_natCast]
  have : (z : ℚ) = f * z.natAbs := by
    conv_lhs => rw [h2]
    rw [Int.cast_mul, Int.cast_natCast]
  rw [this]
  simp [div_eq_mul_inv]

/-- Beside C158: a text of two rows with blanks, a sign, a point, an exponent and a carriage return. -/
example : TableText DecText "5.1 -3\t2e1\r\n +.5  07 1\n".toList ([([51 / 10, -3], 20), ([1 / 2, 7], 1)].map fun r => r.1 ++ [r.2]) := by
  have sgn : Sign [] 1 := Or.inl ⟨rfl, rfl⟩
  have dg : ∀ s n, s ≠ [] → (∀ c ∈ s, c ∈ "0123456789".toList) → n = Nat.ofDigits 10 (s.reverse.map fun c => c.toNat - '0'.toNat) → Digits s n :=
    fun _ _ h1 h2 h3 => ⟨h1, h2, h3⟩
  have none : ExpText [] 0 := Or.inl ⟨rfl, rfl⟩
  have bl : ∀ {s : List Char}, (∀ c ∈ s, c ∈ [' ', '\t', '\n', '\r', Char.ofNat 11, Char.ofNat 12]) → ∀ c ∈ s, Blank c := fun h => h
  have hd : ∀ {s : List Char}, (∀ c ∈ s.head?, c ∈ [' ', '\t', '\n', '\r', Char.ofNat 11, Char.ofNat 12]) → ∀ c, s.head? = some c → Blank c :=
    fun h c hc => h c hc
  refine .line (s := "5.1 -3\t2e1\r".toList) (rest := " +.5  07 1\n".toList) (by decide) ?_
    (.line (s := " +.5  07 1".toList) (rest := []) (by decide) ?_ .done)
  · refine .number (b := []) (s := "5.1".toList) (rest := " -3\t2e1\r".toList) (bl (by decide)) ?_ ?_ (hd (by decide))
    · exact ⟨[], ['5'], ['1'], [], 1, 0, 51, sgn, dg _ _ (by decide) (by decide) (by decide), none, Or.inl rfl, by norm_num⟩
    refine .number (b := [' ']) (s := "-3".toList) (rest := "\t2e1\r".toList) (bl (by decide)) ?_ ?_ (hd (by decide))
    · exact ⟨['-'], ['3'], [], [], -1, 0, 3, Or.inr (Or.inr ⟨rfl, rfl⟩), dg _ _ (by decide) (by decide) (by decide), none, Or.inr ⟨rfl, rfl⟩,
        by norm_num⟩
    refine .number (b := ['\t']) (s := "2e1".toList) (rest := ['\r']) (bl (by decide)) ?_ (.done (bl (by decide))) (hd (by decide))
    exact ⟨[], ['2'], [], ['e', '1'], 1, 1, 2, sgn, dg _ _ (by decide) (by decide) (by decide),
      Or.inr ⟨'e', ['1'], Or.inl rfl, ⟨[], ['1'], 1, 1, rfl, sgn, dg _ _ (by decide) (by decide) (by decide), rfl⟩, rfl⟩, Or.inr ⟨rfl, rfl⟩,
      by norm_num⟩
  · refine .number (b := [' ']) (s := "+.5".toList) (rest := "  07 1".toList) (bl (by decide)) ?_ ?_ (hd (by decide))
    · exact ⟨['+'], [], ['5'], [], 1, 0, 5, Or.inr (Or.inl ⟨rfl, rfl⟩), dg _ _ (by decide) (by decide) (by decide), none, Or.inl rfl, by norm_num⟩
    refine .number (b := "  ".toList) (s := "07".toList) (rest := " 1".toList) (bl (by decide)) ?_ ?_ (hd (by decide))
    · exact ⟨[], ['0', '7'], [], [], 1, 0, 7, sgn, dg _ _ (by decide) (by decide) (by decide), none, Or.inr ⟨rfl, rfl⟩, by norm_num⟩
    refine .number (b := [' ']) (s := "1".toList) (rest := []) (bl (by decide)) ?_ (.done (bl (by decide))) (hd (by decide))
    exact ⟨[], ['1'], [], [], 1, 0, 1, sgn, dg _ _ (by decide) (by decide) (by decide), none, Or.inr ⟨rfl, rfl⟩, by norm_num⟩

/-- The same text, loaded. -/
example : lines "5.1 -3\t2e1\r\n +.5  07 1\n".toList = ["5.1 -3\t2e1\r".toList, " +.5  07 1".toList] ∧
    scanDec "5.1 -3".toList = (51 / 10, true, " -3".toList) ∧ scanDec "2e1\r".toList = (20, true, ['\r']) ∧
    scanDec ",3.5".toList = (0, false, ",3.5".toList) ∧ scanInt (.unsigned 255) "-3".toList = (253, true, []) ∧
    stringToInteger (intReader (.signed (-128) 127)) " 300x".toList = .ok 127 ∧
    stringToInteger (intReader (.signed (-128) 127)) " x".toList = .ok 0 ∧ stringToInteger (intReader (.signed (-128) 127)) " ".toList = .ub := by
  decide +kernel

end OpenML
