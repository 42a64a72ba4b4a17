import Verif.Model.Numerals
import Verif.Lemmas.Binary64

/-!
# Specification of decimal numerals
-/

namespace Walky.Spec

/-- the value of decimal digits -/
def digitsValue : List Char → Nat
  | [] => 0
  | c :: l => (c.toNat - '0'.toNat) * 10 ^ l.length + digitsValue l

/-- A decimal numeral: a minus sign, digits before and after the point, an exponent (its sign and its
digits). -/
structure Numeral where
  minus : Bool
  whole : List Char
  frac : Option (List Char)
  exp : Option (List Char × List Char)

namespace Numeral

/-- the digits after the point as text -/
def fracText : Option (List Char) → List Char
  | none => []
  | some f => '.' :: f

/-- the exponent as text, after the letter `e` -/
def expText (e : Char) : Option (List Char × List Char) → List Char
  | none => []
  | some (s, d) => e :: (s ++ d)

/-- the text of a numeral without its sign -/
def body (e : Char) (n : Numeral) : List Char := n.whole ++ (fracText n.frac ++ expText e n.exp)

/-- the text of a numeral -/
def text (n : Numeral) : List Char := (if n.minus then ['-'] else []) ++ n.body 'e'

/-- digits only, at least one of them, and an exponent with an optional sign -/
structure Valid (n : Numeral) : Prop where
  whole : ∀ c ∈ n.whole, c.isDigit = true
  frac : ∀ c ∈ n.frac.getD [], c.isDigit = true
  some : n.whole ++ n.frac.getD [] ≠ []
  exp : ∀ s d, n.exp = .some (s, d) → s ∈ [[], ['+'], ['-']] ∧ d ≠ [] ∧ ∀ c ∈ d, c.isDigit = true

/-- the exponent -/
def expValue (n : Numeral) : ℤ :=
  match n.exp with
  | none => 0
  | some (s, d) => if s = ['-'] then -(digitsValue d : ℤ) else digitsValue d

/-- the value of a numeral -/
def value (n : Numeral) : ℚ :=
  (if n.minus then -1 else 1) * digitsValue (n.whole ++ n.frac.getD []) *
    (10 : ℚ) ^ (n.expValue - (n.frac.getD []).length)

end Numeral

/-- the text of an integer of an unsigned type with `bound` values: decimal digits, perhaps after a `+` -/
def UnsignedText (bound : Nat) (s : List Char) (n : Nat) : Prop :=
  ∃ d, (s = d ∨ s = '+' :: d) ∧ d ≠ [] ∧ (∀ c ∈ d, c.isDigit = true) ∧ n = digitsValue d ∧ n < bound

/-- the text of a double: an optional sign and, in upper or lower case, the name of a special value, or a
decimal numeral, which stands for the double that it rounds to -/
def F64Text (s : List Char) (x : XNum ℚ) : Prop :=
  ∃ sign body, sign ∈ [[], ['+'], ['-']] ∧ s = sign ++ body ∧
    ((body.map Char.toLower ∈ ["inf".toList, "infinity".toList] ∧ x = if sign = ['-'] then .ninf else .inf) ∨
    (body.map Char.toLower = "nan".toList ∧ x = .nan) ∨
    ∃ (n : Numeral) (e : Char), n.Valid ∧ e ∈ ['e', 'E'] ∧ (n.minus = true ↔ sign = ['-']) ∧ body = n.body e ∧
      x = round64 n.value)

/-- a double or one of the special values -/
def DoubleVal (x : XNum ℚ) : Prop := ∀ q, x = .fin q → IsDouble q

/-- Contract of `Display` for `f64`: a finite number is printed as a numeral without exponent that stands for
this number, i.e. rounds to it. -/
structure Display (fmt : XNum ℚ → List Char) : Prop where
  finite : ∀ x, IsDouble x → ∃ n : Numeral, fmt (.fin x) = n.text ∧ n.Valid ∧ n.exp = none ∧
    round64 n.value = .fin x
  nan : fmt .nan = "NaN".toList
  inf : fmt .inf = "inf".toList
  ninf : fmt .ninf = "-inf".toList

/-- Contract of Python's format `{:.15e}`: a number is printed as a numeral with 16 significant digits, so that
the relative error is at most `10⁻¹⁵ / 2`. -/
def Digits16 (fmt : XNum ℚ → List Char) : Prop :=
  ∀ x, IsDouble x → ∃ n : Numeral, fmt (.fin x) = n.text ∧ n.Valid ∧ |n.value - x| ≤ 1 / 10 ^ 15 / 2 * |x|

end Walky.Spec
