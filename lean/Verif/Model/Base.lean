import Verif.Num

/-!
# Model: basic data structures

Source: `/repo/src/parser.rs`, `/repo/src/datastructures/*.rs`, `/repo/src/preconditions.rs`,
`/repo/src/solvers/mod.rs`.
-/

namespace Walky

open FloatOps


/-- The ways in which the modelled code can abort. -/
inductive Panic where
  /-- index or slice range out of bounds -/
  | index
  /-- `unwrap`/`expect` on `None` or `Err` -/
  | unwrap
  /-- a failed `assert!` / `debug_assert!` -/
  | assert
  /-- an explicit `panic!` / `unimplemented!` -/
  | explicit
  /-- arithmetic fault: division by zero, `usize` subtraction below zero -/
  | arith
  /-- not a behaviour of the code: the fuel of a model loop was too small (shown unreachable) -/
  | fuel
deriving DecidableEq, Repr

/-- Result of running a piece of code: a value, or a panic. -/
abbrev RM (α : Type) := Except Panic α

/-- `Option::unwrap`. -/
def unwrapO {α : Type} : Option α → RM α
  | some a => .ok a
  | none => .error .unwrap

/-- Indexing `v[i]`. -/
def idx {α : Type} (l : List α) (i : Nat) : RM α :=
  match l[i]? with
  | some a => .ok a
  | none => .error .index

/-- `parser.rs:168-173` `struct Edge { to, cost }`. -/
structure Edge (α : Type) where
  /-- target vertex (`to` in the code) -/
  dst : Nat
  /-- weight -/
  cost : α
deriving DecidableEq, Repr

/-- `parser.rs:48-51,134-137` `Graph { vertices: Vec<Vertex> }`, `Vertex { edges: Vec<Edge> }`:
adjacency lists. -/
abbrev Graph (α : Type) := List (List (Edge α))

/-- `datastructures/mod.rs:12-20`, trait `AdjacencyMatrix`: what `dim` and `get` return.
Both implementations (`NAMatrix`, `VecMatrix`) are modelled by this record; `get` is only
meaningful for indices below `dim`, see `Mat.entry`. -/
structure Mat (α : Type) where
  /-- `dim()` -/
  dim : Nat
  /-- `get(row, col)` for `row, col < dim` -/
  get : Nat → Nat → α

/-- `datastructures/mod.rs:76` `type Solution = (f64, Path)`, `Path = Vec<usize>`. -/
abbrev Solution (α : Type) := α × List Nat

variable {α : Type} [FloatOps α]

namespace Mat

/-- `get(row, col)` with the bounds check of `nalgebra.rs:93-95` / `vecmatrix.rs:57-59`. -/
def entry (m : Mat α) (i j : Nat) : RM α :=
  if i < m.dim ∧ j < m.dim then .ok (m.get i j) else .error .index

/-- `set(row, col, cost)` (`nalgebra.rs:97-99`) inside the bounds. -/
def set (m : Mat α) (i j : Nat) (x : α) : Mat α :=
  { m with get := fun a b => if a = i ∧ b = j then x else m.get a b }

/-- a matrix given by its rows; entries outside are `inf` (never read within bounds). -/
def ofRows (rows : List (List α)) : Mat α :=
  { dim := rows.length, get := fun i j => ((rows[i]?).bind (·[j]?)).getD inf }

/-- `nalgebra.rs:84-88` `NAMatrix::from_dim`, `vecmatrix.rs:45-51` `VecMatrix::from_dim`:
no edges (`INFINITY`), zero diagonal. -/
def fromDim (n : Nat) : Mat α :=
  { dim := n, get := fun i j => if i = j then zero else inf }

/-- `datastructures/mod.rs:26-38` `evaluate_path`: left-to-right accumulation of the edge costs
of consecutive vertices. (The indices `path[from]`, `path[from+1]` are traversed as a list of
consecutive pairs.) -/
def evaluatePath (m : Mat α) (path : List Nat) : RM α :=
  if path.length ≤ 1 then .ok zero
  else (path.zip path.tail).foldlM (fun acc e => do
    let cost ← m.entry e.1 e.2
    return acc +ᶠ cost) zero

/-- `datastructures/mod.rs:42-49` `evaluate_circle`. -/
def evaluateCircle (m : Mat α) (path : List Nat) : RM α :=
  if path.length ≤ 1 then .ok zero
  else do
    let l ← unwrapO path.getLast?
    let f ← unwrapO path.head?
    let lastEdge ← m.entry l f
    let pathCost ← m.evaluatePath path
    return pathCost +ᶠ lastEdge

/-- `datastructures/mod.rs:53-70` `is_metric`: `j` starts at `i`; `direct > indirect + 1e-10`
is `indirect + 1e-10 < direct`. (The early `return false` is an `all`.) -/
def isMetric (m : Mat α) : Bool :=
  (List.range m.dim).all fun i =>
    ((List.range m.dim).drop i).all fun j =>
      (List.range m.dim).all fun k =>
        !((m.get i k +ᶠ m.get k j) +ᶠ tol <ᶠ m.get i j)

end Mat

end Walky
