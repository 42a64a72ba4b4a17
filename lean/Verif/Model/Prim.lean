import Verif.Model.Base

/-!
# Model: minimum spanning trees

Source: `/repo/src/mst.rs:20-393` and the edge-weight functions of `/repo/src/parser.rs:75-122`.
-/

namespace Walky

open FloatOps

variable {α : Type} [FloatOps α]

namespace Graph

/-- `parser.rs:78-82` `directed_edge_weight`: sum over the vertices of the sums of their edge
costs. -/
def directedEdgeWeight (g : Graph α) : α :=
  FloatOps.sum (g.map fun v => FloatOps.sum (v.map Edge.cost))

/-- `parser.rs:90-92` `undirected_edge_weight`. -/
def undirectedEdgeWeight (g : Graph α) : α := half (directedEdgeWeight g)

/-- `self.vertices[i].add_edge(e)`. -/
def pushEdge (g : Graph α) (i : Nat) (e : Edge α) : RM (Graph α) :=
  if i < g.length then .ok (g.modify i (· ++ [e])) else .error .index

/-- `parser.rs:96-110` `add_undirected_edge`. The two `debug_assert!`s fail exactly when the
following index expressions would be out of bounds; both are modelled as a panic. -/
def addUndirectedEdge (g : Graph α) (u v : Nat) (cost : α) : RM (Graph α) :=
  if u < g.length ∧ v < g.length then do
    let g ← pushEdge g u ⟨v, cost⟩
    pushEdge g v ⟨u, cost⟩
  else .error .assert

/-- `parser.rs:113-121` `vertex_degree`. -/
def vertexDegree (g : Graph α) (v : Nat) : RM Nat := do
  let es ← idx g v
  return es.length

end Graph

/-- `Iterator::min_by`: the first of the minimal elements (`lt y x`: `y` compares `Less`). -/
def minByFirst {β : Type} (lt : β → β → Bool) : List β → Option β
  | [] => none
  | x :: t => some (t.foldl (fun best y => if lt y best then y else best) x)

/-- `mst.rs:175-197` trait `FindMinCostEdge`. The extra argument `Nat` of `find` and `update` is
the number of the current loop iteration; it lets implementations with scheduling freedom (rayon,
heap ties) behave differently from call to call. -/
structure MinCostOps (σ α : Type) where
  /-- `from_default_value` -/
  fromDefault : Edge α → Nat → σ
  /-- `find_edge_with_minimal_cost` -/
  find : Nat → σ → RM (Nat × Edge α)
  /-- `update_minimal_cost(from, row)`; the row is given by its entries and length -/
  update : Nat → σ → Nat → (Nat → α) → Nat → RM σ
  /-- `set_cost` -/
  setCost : σ → Nat → Edge α → RM σ
  /-- `mark_vertex_as_used` (and `set_excluded_vertex`, which delegates to it) -/
  markUsed : σ → Nat → RM σ

/-- `mst.rs:110-113`: `while excluded_vertices.contains(&idx) { idx += 1 }`. -/
def firstNotExcluded (excluded : List Nat) : Nat → Nat → RM Nat
  | 0, _ => .error .fuel
  | fuel + 1, i => if excluded.contains i then firstNotExcluded excluded fuel (i + 1) else .ok i

/-- `mst.rs:144-154`: record the edge in both directions, except for the start vertex. -/
def primPush (start : Nat) (adj : Graph α) (v : Nat) (e : Edge α) : RM (Graph α) :=
  if v ≠ start then do
    let adj ← Graph.pushEdge adj v e
    Graph.pushEdge adj e.dst ⟨v, e.cost⟩
  else .ok adj

/-- The loop `mst.rs:133-162`; first argument: iterations left, second: iteration number. -/
def primLoop {σ : Type} (ops : MinCostOps σ α) (m : Mat α) (start : Nat) :
    Nat → Nat → σ → Graph α → RM (Graph α)
  | 0, _, _, adj => .ok adj
  | k + 1, it, d, adj => do
    let (v, e) ← ops.find it d
    if eq e.cost inf then return adj
    let d ← ops.markUsed d v
    let adj ← primPush start adj v e
    -- `graph.row(next_vertex)`
    if v < m.dim then do
      let d ← ops.update it d v (m.get v) m.dim
      primLoop ops m start k (it + 1) d adj
    else .error .index

/-- `mst.rs:83-167` `prim_with_excluded_node`. -/
def primGeneric {σ : Type} (ops : MinCostOps σ α) (m : Mat α) (excluded : List Nat) :
    RM (Graph α) := do
  let n := m.dim
  let d := ops.fromDefault ⟨n, inf⟩ (n + 1)
  let start ← firstNotExcluded excluded (excluded.length + 1) 0
  if n ≤ start then return []
  let d ← ops.setCost d start ⟨start, zero⟩
  let d ← excluded.foldlM (fun d v => ops.markUsed d v) d
  let adj ← primLoop ops m start (n + 1) 0 d (List.replicate (n + 1) [])
  return adj.dropLast

/-- `Vec<(Edge, bool)>` -/
abbrev Dist (α : Type) := List (Edge α × Bool)

/-- `mst.rs:283-289`: the unused entries with their index. -/
def Dist.candidates (d : Dist α) : List (Nat × Edge α) :=
  d.zipIdx.filterMap fun x => if x.1.2 then none else some (x.2, x.1.1)

/-- comparison of `mst.rs:291-293`. -/
def Dist.candLt (a b : Nat × Edge α) : Bool := olt a.2.cost b.2.cost

/-- `mst.rs:278-297` `find_edge_with_minimal_cost` for `Vec<(Edge, bool)>`. -/
def Dist.find (d : Dist α) : Nat × Edge α :=
  (minByFirst Dist.candLt d.candidates).getD (d.length, ⟨d.length, inf⟩)

/-- One step of the loop `mst.rs:301-305` (also the closure body `mst.rs:352-369`). -/
def Dist.relax (from_ : Nat) (row : Nat → α) (d : Dist α) (j : Nat) : Dist α :=
  d.modify j fun p => if row j <ᶠ p.1.cost then (⟨from_, row j⟩, p.2) else p

/-- `mst.rs:299-306` `update_minimal_cost` with the order in which the neighbours are treated.
(The row has `dim` entries and the vector `dim + 1`, so no index is out of bounds.) -/
def Dist.updateInOrder (order : List Nat) (d : Dist α) (from_ : Nat) (row : Nat → α) : Dist α :=
  order.foldl (Dist.relax from_ row) d

/-- `self[i].1 = true` (`mst.rs:312-314`). -/
def Dist.markUsed (d : Dist α) (i : Nat) : RM (Dist α) :=
  if i < d.length then .ok (d.modify i fun p => (p.1, true)) else .error .index

/-- `self[i].0 = e` (`mst.rs:308-310`). -/
def Dist.setCost (d : Dist α) (i : Nat) (e : Edge α) : RM (Dist α) :=
  if i < d.length then .ok (d.modify i fun p => (e, p.2)) else .error .index

/-- `mst.rs:273-319` `impl FindMinCostEdge for Vec<(Edge, bool)>`. -/
def vecOps : MinCostOps (Dist α) α where
  fromDefault e n := List.replicate n (e, false)
  find _ d := .ok d.find
  update _ d from_ row n := .ok (d.updateInOrder (List.range n) from_ row)
  setCost := Dist.setCost
  markUsed := Dist.markUsed

/-- `mst.rs:61-66` `prim_with_excluded_node_single_threaded`. -/
def primSeq (m : Mat α) (excluded : List Nat) : RM (Graph α) := primGeneric vecOps m excluded

/-! ## Multi-threaded variant -/

/-- A way in which rayon splits and joins a reduction over a sequence; `none` leaves are empty
pieces. -/
inductive RTree (β : Type) where
  /-- piece without items -/
  | empty
  /-- one item -/
  | leaf (x : β)
  /-- results of two adjacent pieces are combined -/
  | node (l r : RTree β)

/-- the items in order -/
def RTree.flatten {β : Type} : RTree β → List β
  | .empty => []
  | .leaf x => [x]
  | .node l r => l.flatten ++ r.flatten

/-- combine two partial results of a reduction (`None` for pieces without items) -/
def combineO {β : Type} (f : β → β → β) : Option β → Option β → Option β
  | some a, some b => some (f a b)
  | some a, none => some a
  | none, b => b

/-- rayon's `reduce_with` along the tree. -/
def RTree.reduce {β : Type} (f : β → β → β) : RTree β → Option β
  | .empty => none
  | .leaf x => some x
  | .node l r => combineO f (l.reduce f) (r.reduce f)

/-- rayon's `ParallelIterator::min_by`: `reduce_with(|a, b| if b compares Less than a {b} else {a})`. -/
def RTree.minBy {β : Type} (lt : β → β → Bool) (t : RTree β) : Option β :=
  t.reduce fun a b => if lt b a then b else a

/-- `mst.rs:336-393` `impl FindMinCostEdge for MultiThreadedVecWrapper`. `shape it` is the reduction
tree rayon builds in iteration `it`, `order it n` the order in which the closure of
`update_minimal_cost` runs for the indices `0..n`. The raw pointer read `neighbour_prt.add(dim*to)`
(column-major storage, pointer at the start of the row) is the row entry `to`; the raw pointer write
goes to entry `to`. -/
def parOps (shape : Nat → List (Nat × Edge α) → RTree (Nat × Edge α)) (order : Nat → Nat → List Nat) :
    MinCostOps (Dist α) α where
  fromDefault e n := List.replicate n (e, false)
  find it d := .ok (((shape it d.candidates).minBy Dist.candLt).getD (d.length, ⟨d.length, inf⟩))
  update it d from_ row n := .ok (d.updateInOrder (order it n) from_ row)
  setCost := Dist.setCost
  markUsed := Dist.markUsed

/-- `mst.rs:42-47` `prim_with_excluded_node_multi_threaded`. -/
def primPar (shape : Nat → List (Nat × Edge α) → RTree (Nat × Edge α)) (order : Nat → Nat → List Nat)
    (m : Mat α) (excluded : List Nat) : RM (Graph α) := primGeneric (parOps shape order) m excluded

/-! ## Priority queue variant -/

/-- `mst.rs:200-210` `struct VerticesInPriorityQueue`. The queue is the list of its
(vertex, priority) entries; `Reverse<OrderedFloat>` priorities are represented by the cost. -/
structure PQ (α : Type) where
  /-- `cost_queue` -/
  queue : List (Nat × α)
  /-- `connection_to_mst` -/
  conn : List Nat
  /-- `used` -/
  used : List Bool

/-- One iteration of the loop `mst.rs:238-250`. `push_increase` (crate priority-queue 1.3.1): if the
item is in the queue and the new priority is larger (the cost smaller), the priority is replaced and
the old one returned; if it is not larger, the *argument* is returned; if the item is not in the
queue, `None` is returned. -/
def PQ.relax (from_ : Nat) (row : Nat → α) (s : PQ α) (j : Nat) : RM (PQ α) := do
  let u ← idx s.used j
  if u then return s
  match s.queue.lookup j with
  | none => .error .explicit
  | some p =>
    let cost := row j
    let smaller := olt cost p
    let queue := if smaller then s.queue.map (fun x => if x.1 = j then (j, cost) else x) else s.queue
    let old := if smaller then p else cost
    if cost ≤ᶠ old then
      if j < s.conn.length then return { s with queue := queue, conn := s.conn.set j from_ }
      else .error .index
    else return { s with queue := queue }

/-- `mst.rs:211-267` `impl FindMinCostEdge for VerticesInPriorityQueue`. `peek it` is the choice of the
heap among the entries with the smallest cost in iteration `it`. -/
def pqOps (peek : Nat → List (Nat × α) → Option (Nat × α)) : MinCostOps (PQ α) α where
  fromDefault e n :=
    { queue := (List.range n).map fun i => (i, e.cost), conn := List.replicate n e.dst,
      used := List.replicate n false }
  find it s := do
    let (v, cost) := (peek it s.queue).getD (s.conn.length, inf)
    let t ← idx s.conn v
    return (v, ⟨t, cost⟩)
  update _ s from_ row n := (List.range n).foldlM (PQ.relax from_ row) s
  setCost s v e :=
    if v < s.conn.length then
      .ok { s with queue := s.queue.map (fun x => if x.1 = v then (v, e.cost) else x),
                   conn := s.conn.set v e.dst }
    else .error .index
  markUsed s v :=
    if v < s.used.length then
      .ok { s with queue := s.queue.filter (fun x => x.1 ≠ v), used := s.used.set v true }
    else .error .index

/-- `mst.rs:70-75` `prim_with_excluded_node_priority_queue`. -/
def primQueue (peek : Nat → List (Nat × α) → Option (Nat × α)) (m : Mat α) (excluded : List Nat) :
    RM (Graph α) := primGeneric (pqOps peek) m excluded

end Walky
