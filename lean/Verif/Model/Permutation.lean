import Verif.Model.Base
import Mathlib.Order.Defs.LinearOrder
import Mathlib.Data.Nat.Factorial.Basic

/-!
# Model: permutation enumeration and the solvers v0, v1

Source: `/repo/src/solvers/exact.rs:24-65,539-562`.
-/

namespace Walky

open FloatOps


section next
variable {β : Type} [LinearOrder β]

/-- `exact.rs:544-547`: `while i > 0 && array[i-1] >= array[i] { i -= 1 }`, started at `i`. -/
def findPivot (a : List β) : Nat → RM Nat
  | 0 => .ok 0
  | i + 1 => do
    let x ← idx a i
    let y ← idx a (i + 1)
    if y ≤ x then findPivot a i else .ok (i + 1)

/-- `exact.rs:553-556`: `while array[j] <= array[i-1] { j -= 1 }`, started at `j`;
`j -= 1` at `j = 0` would underflow. -/
def findSucc (a : List β) (pivot : β) : Nat → RM Nat
  | 0 => do
    let y ← idx a 0
    if y ≤ pivot then .error .arith else .ok 0
  | j + 1 => do
    let y ← idx a (j + 1)
    if y ≤ pivot then findSucc a pivot j else .ok (j + 1)

/-- `array.swap(i, j)`. -/
def swapAt (a : List β) (i j : Nat) : RM (List β) := do
  let x ← idx a i
  let y ← idx a j
  return (a.set i y).set j x

/-- `exact.rs:539-562` `next_permutation`; the mutated slice is the second component. -/
def nextPermutation (a : List β) : RM (Bool × List β) :=
  if a.isEmpty then .ok (false, a)
  else do
    let i ← findPivot a (a.length - 1)
    if i = 0 then return (false, a)
    let pivot ← idx a (i - 1)
    let j ← findSucc a pivot (a.length - 1)
    let b ← swapAt a (i - 1) j
    return (true, b.take i ++ (b.drop i).reverse)

end next

variable {α : Type} [FloatOps α]

/-- The loop of `exact.rs:33-39`: `step` is `next_permutation` on the (sub)slice. `fuel` bounds
the number of iterations. -/
def permLoop (m : Mat α) (step : List Nat → RM (Bool × List Nat)) :
    Nat → List Nat → Solution α → RM (Solution α)
  | 0, _, _ => .error .fuel
  | fuel + 1, cur, best => do
    let (more, cur') ← step cur
    if more then do
      let cost ← m.evaluateCircle cur'
      if cost <ᶠ best.1 then permLoop m step fuel cur' (cost, cur')
      else permLoop m step fuel cur' best
    else return best

/-- `exact.rs:24-41` `naive_solver` (v0). -/
def naiveSolver (m : Mat α) : RM (Solution α) :=
  permLoop m nextPermutation (m.dim.factorial + 1) (List.range m.dim) (inf, List.range m.dim)

/-- `next_permutation(&mut current_permutation[1..])`; the slice expression panics on an empty
vector. -/
def nextPermutationTail (a : List Nat) : RM (Bool × List Nat) :=
  match a with
  | [] => .error .index
  | x :: t => do
    let (more, t') ← nextPermutation t
    return (more, x :: t')

/-- `exact.rs:48-65` `first_improved_solver` (v1). -/
def firstImprovedSolver (m : Mat α) : RM (Solution α) :=
  permLoop m nextPermutationTail (m.dim.factorial + 1) (List.range m.dim) (inf, List.range m.dim)

end Walky
