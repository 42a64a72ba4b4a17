import Verif.Model.Prim
import Mathlib.Data.List.Dedup

/-!
# Model: instances

Source: `/repo/src/parser.rs`, `/repo/src/preconditions.rs`, `/repo/src/datastructures/nalgebra.rs`,
`/repo/src/datastructures/vecmatrix.rs`, `/repo/utils/gen_matrix_fast/src/main.rs`.

Here a parsed document is its adjacency lists; a printed document is the adjacency lists that a parser reads
from it. The text of documents is in `Model/Xml.lean` and `Model/Parser.lean`.
-/

namespace Walky

open FloatOps

variable {α : Type} [FloatOps α]

/-- `Iterator::all` / a loop with an early `return false`, for a test that may panic. -/
def allRM {β : Type} (f : β → RM Bool) : List β → RM Bool
  | [] => .ok true
  | x :: t => do
    let b ← f x
    if b then allRM f t else return false

/-! ## Preconditions -/

/-- `preconditions.rs:9-12` `is_fully_connected`. (`n - 1` is only evaluated for `n > 0`.) -/
def isFullyConnected (g : Graph α) : Bool := g.all fun v => v.length == g.length - 1

/-- `preconditions.rs:15-26` `is_multi_edge`. (The size of a `HashSet` of the destinations is the
number of different ones.) -/
def isMultiEdge (g : Graph α) : Bool :=
  g.any fun v => (v.map Edge.dst).length != (v.map Edge.dst).dedup.length

/-- `preconditions.rs:33-46`: the body of the loop over the edges `v1e` of vertex `i`. The inner loop
stops at the first edge back to `i`; if there is none, nothing is checked. -/
def isUndirectedAt (g : Graph α) (i : Nat) (v1e : Edge α) : RM Bool := do
  let v2 ← idx g v1e.dst
  match v2.find? (fun v2e => v2e.dst == i) with
  | some v2e => return eq v2e.cost v1e.cost
  | none => return true

/-- `preconditions.rs:30-50` `is_undirected`. -/
def isUndirected (g : Graph α) : RM Bool :=
  allRM (fun x : List (Edge α) × Nat => allRM (isUndirectedAt g x.2) x.1) g.zipIdx

/-- `parser.rs:40-43` `do_conditions_hold`. -/
def doConditionsHold (g : Graph α) : RM Bool :=
  if isFullyConnected g && !isMultiEdge g then isUndirected g else .ok false

/-- `parser.rs:30-36` `parse_from_xml` for a document with the graph `g`. -/
def parseChecked (g : Graph α) : RM (Graph α) := do
  let b ← doConditionsHold g
  if b then return g else .error .assert

/-! ## Conversions -/

/-- `matrix[(i, j)] = x` with its bounds check. -/
def Mat.setEntry (m : Mat α) (i j : Nat) (x : α) : RM (Mat α) :=
  if i < m.dim ∧ j < m.dim then .ok (m.set i j x) else .error .index

/-- `nalgebra.rs:62-74` `From<&Graph> for NAMatrix`. -/
def naFromGraph (g : Graph α) : RM (Mat α) :=
  g.zipIdx.foldlM (fun (m : Mat α) x =>
    x.1.foldlM (fun (m : Mat α) e => m.setEntry x.2 e.dst e.cost) m) (Mat.fromDim g.length)

/-- `vecmatrix.rs:9-23` `From<Graph> for VecMatrix`. All entries, also on the diagonal, are `inf`
at first. -/
def vecFromGraph (g : Graph α) : RM (Mat α) :=
  g.zipIdx.foldlM (fun (m : Mat α) x =>
    x.1.foldlM (fun (m : Mat α) e => do
      let m ← m.setEntry x.2 e.dst e.cost
      m.setEntry e.dst x.2 e.cost) m) { dim := g.length, get := fun _ _ => inf }

/-- `nalgebra.rs:102-117` `From<&T> for NAMatrix` for an adjacency matrix `T`: all entries are copied.
(All indices are below both dimensions.) -/
def naFromMat (v : Mat α) : RM (Mat α) :=
  (List.range v.dim).foldlM (fun (m : Mat α) i =>
    (List.range v.dim).foldlM (fun (m : Mat α) j => do
      let x ← v.entry i j
      m.setEntry i j x) m) (Mat.fromDim v.dim)

/-! ## Points -/

/-- `nalgebra.rs:19`, `nalgebra.rs:40`: the distance of two points. `sqrt` is a parameter;
`powi(2)` is a product. -/
def pointDist (sqrt : α → α) (p q : α × α) : α :=
  sqrt (mul (p.1 -ᶠ q.1) (p.1 -ᶠ q.1) +ᶠ mul (p.2 -ᶠ q.2) (p.2 -ᶠ q.2))

/-- `nalgebra.rs:14-27` `NAMatrix::from_points`. -/
def fromPoints (sqrt : α → α) (points : List (α × α)) : RM (Mat α) :=
  points.zipIdx.foldlM (fun (m : Mat α) x =>
    (points.drop (x.2 + 1)).zipIdx.foldlM (fun (m : Mat α) y => do
      let j := x.2 + y.2 + 1
      let weight := pointDist sqrt x.1 y.1
      let m ← m.setEntry x.2 j weight
      m.setEntry j x.2 weight) m) (Mat.fromDim points.length)

/-- `nalgebra.rs:30-47` `NAMatrix::par_from_points`: `order` is the order in which the columns are
treated by the threads. Column `j` belongs to `from = points[j]`, its entry `i` to `to = points[i]`. -/
def parFromPoints (sqrt : α → α) (order : List Nat) (points : List (α × α)) : RM (Mat α) :=
  order.foldlM (fun (m : Mat α) j => do
    let from_ ← idx points j
    points.zipIdx.foldlM (fun (m : Mat α) y => m.setEntry y.2 j (pointDist sqrt from_ y.1)) m)
    (Mat.fromDim points.length)

/-! ## Instance generator -/

/-- `gen_matrix_fast/src/main.rs:10-14` `euclidean_distance`. -/
def genDist (sqrt : α → α) (p1 p2 : α × α) : α :=
  sqrt (mul (p2.1 -ᶠ p1.1) (p2.1 -ᶠ p1.1) +ᶠ mul (p2.2 -ᶠ p1.2) (p2.2 -ᶠ p1.2))

/-- `gen_matrix_fast/src/main.rs:66-75`: the distance matrix of the random points. -/
def genMatrix (sqrt : α → α) (points : List (α × α)) : List (List α) :=
  points.zipIdx.map fun x => points.zipIdx.map fun y =>
    if x.2 ≠ y.2 then genDist sqrt x.1 y.1 else zero

/-- `gen_matrix_fast/src/main.rs:16-42` `generate_xml_from_matrix`: the graph in the printed document.
Entries that are zero are left out. -/
def genGraph (matrix : List (List α)) : Graph α :=
  matrix.map fun row => row.zipIdx.filterMap fun x => if eq x.1 zero then none else some ⟨x.2, x.1⟩

end Walky
