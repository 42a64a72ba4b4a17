import Verif.Model.Instance
import Verif.Model.NearestNeighbour

/-!
# Model: the Python reference for nearest neighbour

Source: `/repo/utils/NN_approx.py`, `/repo/utils/tsp_logic.py:23-34`.

Python's integers are unbounded. The random numbers are a parameter. A set of cities is a list without
repetition; the order in which Python iterates over it is a parameter. Exceptions are panics. Not modelled: the
lines that `print` writes in the loop, and the seed. Of `convert_to_rust_code` the graph is modelled that the
printed expression denotes, not its text.
-/

namespace Walky

open FloatOps

/-- `NN_approx.py:6-11` `generate_graph_matrix`; `A` are the numbers drawn. (`//` by 2 is `/` on `Int`.) -/
def pyIntMatrix (A : Nat → Nat → Int) : Nat → Nat → Int :=
  let B : Nat → Nat → Int := fun i j => if i = j then 0 else A i j
  fun i j => (B i j + B j i) / 2

/-- `min(l, key=key)`: the first one of the smallest ones -/
def pyMinKey (key : Nat → Int) : List Nat → RM Nat
  | [] => .error .explicit
  | x :: t => .ok (t.foldl (fun b y => if key y < key b then y else b) x)

/-- The loop `NN_approx.py:22-27`. -/
def pyNNLoop (iter : List Nat → List Nat) (G : Nat → Nat → Int) : Nat → List Nat → List Nat → Nat → RM (List Nat)
  | fuel, path, unvisited, current =>
    if unvisited.isEmpty then .ok path
    else match fuel with
      | 0 => .error .fuel
      | fuel + 1 => do
        let nearest ← pyMinKey (G current) (iter unvisited)
        pyNNLoop iter G fuel (path ++ [nearest]) (unvisited.erase nearest) nearest

/-- `NN_approx.py:29-30`: the cost of the path; `path[-1]` is the last entry. -/
def pyTourCost (G : Nat → Nat → Int) (n : Nat) (path : List Nat) : RM Int := do
  let cost ← (List.range (n - 1)).foldlM (fun s i => do
    let a ← idx path i
    let b ← idx path (i + 1)
    return s + G a b) 0
  let a ← unwrapO path.getLast?
  let b ← idx path 0
  return cost + G a b

/-- `NN_approx.py:14-32` `tsp_nearest_neighbour`. `remove` raises an exception if the city does not exist. -/
def pyNN (iter : List Nat → List Nat) (G : Nat → Nat → Int) (n start : Nat) : RM (List Nat × Int) :=
  if start < n then do
    let path ← pyNNLoop iter G n [start] ((List.range n).erase start) start
    let cost ← pyTourCost G n path
    return (path, cost)
  else .error .explicit

variable {α : Type} [FloatOps α]

/-- `tsp_logic.py:23-34` `convert_to_rust_code`: the graph that is printed -/
def pyRustGraph (matrix : List (List α)) : Graph α :=
  matrix.zipIdx.map fun row => row.1.zipIdx.filterMap fun x =>
    if row.2 ≠ x.2 ∧ !(eq x.1 zero) then some ⟨x.2, x.1⟩ else none

end Walky
