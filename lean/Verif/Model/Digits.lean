import Verif.Model.Base

/-!
# Model: prefixes as numbers in base `dim`

Source: `/repo/src/solvers/exact.rs:564-614`. `usize` arithmetic is modelled by `Nat` (for overflow of
`basis.pow(number_digits)` see `MachineInt.lean`); division by zero is a panic.
-/

namespace Walky

/-- The loop of `exact.rs:590-593`; arguments: remaining iterations, `remainder`, `digits`. -/
def convertLoop (basis : Nat) : Nat → Nat → List Nat → RM (List Nat)
  | 0, _, digits => .ok digits
  | k + 1, remainder, digits =>
    if basis = 0 then .error .arith
    else convertLoop basis k (remainder / basis) (digits ++ [remainder % basis])

/-- `exact.rs:586-597` `convert_to_b_ary_digits`. -/
def convertToBAryDigits (value basis numberDigits : Nat) : RM (List Nat) := do
  let digits ← convertLoop basis numberDigits value []
  return digits.reverse

/-- `exact.rs:566-583` `split_up_b_ary_number_into_n_chunks`. -/
def splitChunks (numberDigits basis n k : Nat) : RM (List Nat × List Nat) :=
  let total := basis ^ numberDigits
  if n < total then
    if n = 0 then .error .arith
    else do
      let cs := total / n
      let minV := k * cs
      let maxV := minV + cs - 1
      let a ← convertToBAryDigits minV basis numberDigits
      let b ← convertToBAryDigits maxV basis numberDigits
      return (a, b)
  else .error .assert

/-- The loop of `exact.rs:603-611` over the reversed digits: the changed digits, and whether the
loop returned early. -/
def incRev (basis : Nat) : Nat → List Nat → RM (List Nat × Bool)
  | _, [] => .ok ([], false)
  | carry, d :: ds =>
    if basis = 0 then .error .arith
    else
      let s := d + carry
      if s / basis = 0 then .ok (s % basis :: ds, true)
      else do
        let r ← incRev basis (s / basis) ds
        return (s % basis :: r.1, r.2)

/-- `exact.rs:601-614` `get_next_value`: the changed argument and the returned option. -/
def getNextValue (digits : List Nat) (basis : Nat) : RM (List Nat × Option (List Nat)) := do
  let r ← incRev basis 1 digits.reverse
  return (r.1.reverse, if r.2 then some r.1.reverse else none)

end Walky
