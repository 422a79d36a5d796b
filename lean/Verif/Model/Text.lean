import Mathlib.Algebra.Order.Field.Basic
import Mathlib.Data.Rat.Defs
import Verif.Model.Data

/-!
# Reading numbers from text

The text side of `loadtxt` (`src/core/data/load.hpp` lines 17-102) and `common::string_to_integer` (`src/core/common.hpp` lines
475-479). A text is a list of characters. `operator>>` is modelled as libstdc++ implements it in the C locale with the default flags
(blanks are skipped, base ten). Floating point numbers are taken with their exact decimal value; the rounding to the nearest double and
the range of its exponent are not modelled.
-/

namespace OpenML.Text

/-- `std::isspace` in the C locale, as used by the sentry of `operator>>` (`src/core/data/load.hpp` lines 31, 61, 88,
`src/core/common.hpp` line 478). -/
def isSpace (c : Char) : Bool := c == ' ' || c == '\t' || c == '\n' || c == '\r' || c.toNat == 11 || c.toNat == 12

/-- A decimal digit (`operator>>`, `src/core/data/load.hpp` line 31). -/
def isDigit (c : Char) : Bool := decide (48 ≤ c.toNat) && decide (c.toNat ≤ 57)

/-- The number written by digits, accumulated from the left (`operator>>`, `src/core/data/load.hpp` line 31). -/
def natOf (ds : List Char) : Nat := ds.foldl (fun a c => 10 * a + (c.toNat - 48)) 0

/-- An optional sign: whether it is a minus, and the text after it (`operator>>`, `src/core/data/load.hpp` line 31). -/
def splitSign : List Char → Bool × List Char
  | [] => (false, [])
  | c :: t => if c = '-' then (true, t) else if c = '+' then (false, t) else (false, c :: t)

/-- An integer type: signed with its smallest and largest value, or unsigned with its largest value (template argument `DataType`,
`src/core/data/load.hpp` line 48, `src/core/common.hpp` line 474). -/
inductive IntType
  | signed (lo hi : Int)
  | unsigned (max : Nat)

/-- Conversion of a sign and an absolute value into an integer type, with the success of the extraction: what is out of range becomes the
nearest bound and fails, a negative number of an unsigned type wraps around (`operator>>`, `src/core/data/load.hpp` line 31). -/
def IntType.convert : IntType → Bool → Nat → Int × Bool
  | .signed lo hi, neg, n =>
    let v : Int := if neg then -n else n
    if v < lo then (lo, false) else if hi < v then (hi, false) else (v, true)
  | .unsigned max, neg, n =>
    if max < n then (max, false) else if neg ∧ n ≠ 0 then ((max : Int) + 1 - n, true) else (n, true)

/-- `operator>>` of an integer once blanks have been skipped: the value stored, the success and the text left
(`src/core/data/load.hpp` lines 31, 61, 88, `src/core/common.hpp` line 478). Without a digit the value is 0 and the extraction fails. -/
def scanInt (ty : IntType) (t : List Char) : Int × Bool × List Char :=
  let s := splitSign t
  let ds := s.2.takeWhile isDigit
  let rest := s.2.dropWhile isDigit
  if ds = [] then (0, false, rest)
  else
    let v := ty.convert s.1 (natOf ds)
    (v.1, v.2, rest)

/-- The fraction of a decimal number: digits after a point (`operator>>`, `src/core/data/load.hpp` line 31). -/
def splitFraction : List Char → List Char × List Char
  | [] => ([], [])
  | c :: t => if c = '.' then (t.takeWhile isDigit, t.dropWhile isDigit) else ([], c :: t)

/-- The exponent of a decimal number: its sign and digits if an `e` is there (`operator>>`, `src/core/data/load.hpp` line 31). -/
def splitExponent : List Char → Option (Bool × List Char) × List Char
  | [] => (none, [])
  | c :: t =>
    if c = 'e' ∨ c = 'E' then
      let s := splitSign t
      (some (s.1, s.2.takeWhile isDigit), s.2.dropWhile isDigit)
    else (none, c :: t)

/-- `operator>>` of a floating point number once blanks have been skipped (`src/core/data/load.hpp` lines 31, 61, 88). Without digits, or
with an exponent without digits, the value is 0 and the extraction fails. -/
def scanDec (t : List Char) : ℚ × Bool × List Char :=
  let s := splitSign t
  let whole := s.2.takeWhile isDigit
  let f := splitFraction (s.2.dropWhile isDigit)
  if whole ++ f.1 = [] then (0, false, f.2)
  else
    let e := splitExponent f.2
    let m : ℚ := (if s.1 then -1 else 1) * (natOf (whole ++ f.1) : ℚ) / 10 ^ f.1.length
    match e.1 with
    | none => (m, true, e.2)
    | some (neg, ds) => if ds = [] then (0, false, e.2) else (if neg then m / 10 ^ natOf ds else m * 10 ^ natOf ds, true, e.2)

/-- A number type that can be extracted from a stream; an extraction that succeeds consumes at least one character
(`src/core/data/load.hpp` line 31). -/
structure Reader (α : Type) where
  scan : List Char → α × Bool × List Char
  shorter : ∀ t, (scan t).2.1 = true → (scan t).2.2.length < t.length

/-- `stream >> elem` (`src/core/data/load.hpp` lines 31, 61, 88): blanks are skipped; at the end of the text nothing is stored. -/
def extract {α : Type} (R : Reader α) (s : List Char) : Option α × Bool × List Char :=
  match s.dropWhile isSpace with
  | [] => (none, false, [])
  | c :: t => (some (R.scan (c :: t)).1, (R.scan (c :: t)).2)

theorem extract_shorter {α : Type} (R : Reader α) (s : List Char) (h : (extract R s).2.1 = true) : (extract R s).2.2.length < s.length := by
  unfold extract at h ⊢
  have hle : (s.dropWhile isSpace).length ≤ s.length := (List.dropWhile_sublist _).length_le
  cases e : s.dropWhile isSpace with
  | nil => rw [e] at h; cases h
  | cons c t =>
    rw [e] at h hle
    exact lt_of_lt_of_le (R.shorter _ h) hle

theorem splitSign_le (t : List Char) : (splitSign t).2.length ≤ t.length := by
  cases t with
  | nil => exact le_rfl
  | cons c t =>
    rw [splitSign]
    split
    · exact Nat.le_succ _
    · split
      · exact Nat.le_succ _
      · exact le_rfl

theorem takeWhile_add_dropWhile (p : Char → Bool) (l : List Char) : (l.takeWhile p).length + (l.dropWhile p).length = l.length := by
  rw [← List.length_append, List.takeWhile_append_dropWhile]

theorem splitFraction_le (t : List Char) : (splitFraction t).1.length + (splitFraction t).2.length ≤ t.length := by
  cases t with
  | nil => exact le_rfl
  | cons c t =>
    rw [splitFraction]
    split
    · have := takeWhile_add_dropWhile isDigit t
      simp only [List.length_cons]
      omega
    · simp

theorem splitExponent_le (t : List Char) : (splitExponent t).2.length ≤ t.length := by
  cases t with
  | nil => exact le_rfl
  | cons c t =>
    rw [splitExponent]
    split
    · have := takeWhile_add_dropWhile isDigit (splitSign t).2
      have := splitSign_le t
      simp only [List.length_cons]
      omega
    · exact le_rfl

/-- Streams of an integer type (`src/core/data/load.hpp` lines 48-66, for `std::size_t` transactions). -/
def intReader (ty : IntType) : Reader Int where
  scan := scanInt ty
  shorter t h := by
    unfold scanInt at h ⊢
    dsimp only at h ⊢
    have h1 := splitSign_le t
    have h2 := takeWhile_add_dropWhile isDigit (splitSign t).2
    split at h
    · cases h
    · rename_i hne
      rw [if_neg hne]
      have := List.length_pos_of_ne_nil hne
      dsimp only
      omega

/-- Streams of a floating point type (`src/core/data/load.hpp` lines 14-46, for matrices of doubles). -/
def decReader : Reader ℚ where
  scan := scanDec
  shorter t h := by
    unfold scanDec at h ⊢
    have h1 := splitSign_le t
    have h2 := takeWhile_add_dropWhile isDigit (splitSign t).2
    have h3 := splitFraction_le ((splitSign t).2.dropWhile isDigit)
    have h4 := splitExponent_le (splitFraction ((splitSign t).2.dropWhile isDigit)).2
    dsimp only at h ⊢
    split at h
    · cases h
    · rename_i hne
      rw [if_neg hne]
      have hp := List.length_pos_of_ne_nil hne
      rw [List.length_append] at hp
      split
      · dsimp only
        omega
      · split
        · dsimp only
          omega
        · dsimp only
          omega

/-- One line: numbers are appended until an extraction fails (`src/core/data/load.hpp` lines 28-34, 58-64, 85-91). -/
def readLine {α : Type} (R : Reader α) (s : List Char) : List α :=
  if h : (extract R s).2.1 = true then
    match (extract R s).1 with
    | none => []
    | some a => a :: readLine R (extract R s).2.2
  else []
termination_by s.length
decreasing_by exact extract_shorter R s h

/-- The lines that `std::getline` returns (`src/core/data/load.hpp` lines 27, 57, 84): each ends at a newline or at the end of the file;
nothing follows a final newline. -/
def lines : List Char → List (List Char)
  | [] => []
  | c :: t =>
    if c = '\n' then [] :: lines t
    else
      match lines t with
      | [] => [[c]]
      | l :: ls => (c :: l) :: ls

/-- The table read from a file; `none` is a file that cannot be opened (`src/core/data/load.hpp` lines 21-35, 51-65, 77-92). -/
def table {α : Type} (R : Reader α) (file : Option (List Char)) : Option (List (List α)) :=
  file.map fun text => (lines text).map (readLine R)

/-- `string_to_integer` (`src/core/common.hpp` lines 475-479): when nothing is stored the variable returned was never initialised. -/
def stringToInteger (R : Reader Int) (s : List Char) : Res Int :=
  match (extract R s).1 with
  | none => .ub
  | some n => .ok n

end OpenML.Text
