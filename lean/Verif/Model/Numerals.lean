import Verif.Rounding

/-!
# Model: numbers as text

What Rust's `FromStr` and `Display` do for `usize`, `u32` and `f64` (`parser.rs` and the instance
generator use nothing else). Contract of the standard library on a 64 bit machine:

* integers: an optional `+` and at least one decimal digit, the value must be in range;
* `f64`: an optional sign, then `inf`, `infinity` or `nan` (in any case), or decimal digits with an
  optional point, at least one digit, and an optional exponent; the result is the double nearest to the
  value of the numeral (`round64`);
* `Display` of `usize` is the decimal numeral without leading zeros.
-/

namespace Walky

/-- one or more decimal digits -/
def readDigits (s : List Char) : Option Nat :=
  if s ≠ [] ∧ s.all Char.isDigit then some (Nat.ofDigitChars 10 s 0) else none

/-- `FromStr` of an unsigned integer type with `bound` values -/
def readUnsigned (bound : Nat) (s : List Char) : Option Nat :=
  let t := match s with
    | '+' :: t => t
    | s => s
  match readDigits t with
  | some n => if n < bound then some n else none
  | none => none

/-- `usize::from_str` -/
def readUsize : List Char → Option Nat := readUnsigned (2 ^ 64)

/-- `u32::from_str` -/
def readU32 : List Char → Option Nat := readUnsigned (2 ^ 32)

/-- `Display` of `usize` -/
def showUsize (n : Nat) : List Char := Nat.toDigits 10 n

/-- an optional sign: is it a minus, and what is left -/
def readSign : List Char → Bool × List Char
  | '+' :: t => (false, t)
  | '-' :: t => (true, t)
  | s => (false, s)

/-- the optional exponent at the end of a numeral -/
def readExponent : List Char → Option ℤ
  | [] => some 0
  | c :: t =>
    if c = 'e' ∨ c = 'E' then
      match readDigits (readSign t).2 with
      | some n => some (if (readSign t).1 then -(n : ℤ) else n)
      | none => none
    else none

/-- `10 ^ e` -/
def pow10 : ℤ → ℚ
  | .ofNat n => ((10 ^ n : ℕ) : ℚ)
  | .negSucc n => 1 / ((10 ^ (n + 1) : ℕ) : ℚ)

/-- the digits after an optional point, and what is left -/
def readFrac : List Char → List Char × List Char
  | [] => ([], [])
  | c :: t => if c = '.' then (t.takeWhile Char.isDigit, t.dropWhile Char.isDigit) else ([], c :: t)

/-- the value of a numeral without sign -/
def readDecimal (s : List Char) : Option ℚ :=
  let whole := s.takeWhile Char.isDigit
  let rest := s.dropWhile Char.isDigit
  let frac := (readFrac rest).1
  if whole ++ frac = [] then none
  else match readExponent (readFrac rest).2 with
    | some e => some ((Nat.ofDigitChars 10 (whole ++ frac) 0 : ℚ) * pow10 (e - frac.length))
    | none => none

/-- `f64::from_str` -/
def readF64 (s : List Char) : Option (XNum ℚ) :=
  let neg := (readSign s).1
  let body := (readSign s).2
  let word := body.map Char.toLower
  if word = "inf".toList ∨ word = "infinity".toList then some (if neg then .ninf else .inf)
  else if word = "nan".toList then some .nan
  else match readDecimal body with
    | some v => some (round64 (if neg then -v else v))
    | none => none

end Walky
