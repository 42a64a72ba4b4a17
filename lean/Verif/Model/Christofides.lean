import Verif.Model.Prim
import Verif.Model.Threaded

/-!
# Model: matching and Christofides' algorithm

Source: `/repo/src/solvers/approximate/matching.rs`,
`/repo/src/solvers/approximate/christofides.rs`, `/repo/src/solvers/mod.rs:12-35`.

Shuffles (`thread_rng`) are arbitrary functions given as parameters. Edges `[usize; 2]` are pairs.
-/

namespace Walky

open FloatOps

variable {α : Type} [FloatOps α]

/-! ## `matching.rs` -/

/-- `matching.rs:36-39`: `vertices.chunks_exact(2).map(|chunk| [chunk[0], chunk[1]])`; a last single
vertex is dropped. Also the grouping of `matching.rs:270-280`. -/
def pairUp : List Nat → List (Nat × Nat)
  | a :: b :: t => (a, b) :: pairUp t
  | _ => []

/-- `matching.rs:235`: the vertices of the edges in order. -/
def flattenEdges (l : List (Nat × Nat)) : List Nat := l.flatMap fun e => [e.1, e.2]

/-- `matching.rs:137-179` `optimize_two_matching`, as written: the first branch (lines 162-165)
stores `[v0, v2]` and `[v1, v2]`. -/
def optimizeTwo (m : Mat α) (e01 e23 : Nat × Nat) : RM ((Nat × Nat) × (Nat × Nat)) := do
  let v0 := e01.1
  let v1 := e01.2
  let v2 := e23.1
  let v3 := e23.2
  let cost01 ← m.entry v0 v1
  let cost23 ← m.entry v2 v3
  let cost0 := cost01 +ᶠ cost23
  let cost02 ← m.entry v0 v2
  let cost13 ← m.entry v1 v3
  let cost1 := cost02 +ᶠ cost13
  let cost03 ← m.entry v0 v3
  let cost12 ← m.entry v1 v2
  let cost2 := cost03 +ᶠ cost12
  if cost1 <ᶠ cost0 then
    if cost2 <ᶠ cost1 then return ((v0, v2), (v1, v2))
    else return ((v0, v2), (v1, v3))
  else if cost2 <ᶠ cost0 then return ((v0, v3), (v1, v2))
  else return ((v0, v1), (v2, v3))

/-- `matching.rs:102-111`: `for chunk in matching.chunks_exact_mut(2)`. -/
def improvePairs (m : Mat α) : List (Nat × Nat) → RM (List (Nat × Nat))
  | a :: b :: t => do
    let r ← optimizeTwo m a b
    let t ← improvePairs m t
    return r.1 :: r.2 :: t
  | l => .ok l

/-- `matching.rs:89-113` `improve_matching`; `shuf k` is the shuffle of round `k`. -/
def improveMatching (m : Mat α) (shuf : Nat → List (Nat × Nat) → List (Nat × Nat)) (tries : Nat)
    (l : List (Nat × Nat)) : RM (List (Nat × Nat)) :=
  if l.length ≤ 1 then .ok l
  else (List.range tries).foldlM (fun l k => improvePairs m (shuf k l)) l

/-- `matching.rs:196-204`: the closure for the `k`-th chunk. -/
def improveChunk (m : Mat α) (l : List (Nat × Nat)) (k : Nat) : RM (List (Nat × Nat)) := do
  let a ← idx l (2 * k)
  let b ← idx l (2 * k + 1)
  let r ← optimizeTwo m a b
  return (l.set (2 * k) r.1).set (2 * k + 1) r.2

/-- `matching.rs:182-206` `par_improve_matching`; `order k c` is the order in which the `c` chunks of
round `k` are treated. (The chunks are disjoint mutable slices.) -/
def parImproveMatching (m : Mat α) (shuf : Nat → List (Nat × Nat) → List (Nat × Nat))
    (order : Nat → Nat → List Nat) (tries : Nat) (l : List (Nat × Nat)) : RM (List (Nat × Nat)) :=
  (List.range tries).foldlM (fun l k =>
    (order k ((shuf k l).length / 2)).foldlM (improveChunk m) (shuf k l)) l

/-- `matching.rs:232`: cost of a matching. -/
def matchingCost (m : Mat α) (l : List (Nat × Nat)) : RM α := do
  let cs ← l.mapM fun e => m.entry e.1 e.2
  return FloatOps.sum cs

/-- The randomness of `approx_min_cost_matching`: the shuffle of the vertices and the shuffles of the
edges in every round. -/
structure MatchRng where
  /-- `matching.rs:35` -/
  vertices : List Nat → List Nat
  /-- `matching.rs:98,188` -/
  edges : Nat → List (Nat × Nat) → List (Nat × Nat)

/-- shuffles permute -/
structure MatchRng.Ok (r : MatchRng) : Prop where
  vertices : ∀ l, (r.vertices l).Perm l
  edges : ∀ k l, (r.edges k l).Perm l

/-- `matching.rs:30-58` `approx_min_cost_matching` in mode SEQ. -/
def approxMatchingSeq (m : Mat α) (r : MatchRng) (vertices : List Nat) (tries : Nat) :
    RM (List (Nat × Nat)) :=
  improveMatching m r.edges tries (pairUp (r.vertices vertices))

/-- `matching.rs:30-58` `approx_min_cost_matching` in mode PAR. -/
def approxMatchingPar (m : Mat α) (r : MatchRng) (order : Nat → Nat → List Nat) (vertices : List Nat)
    (tries : Nat) : RM (List (Nat × Nat)) :=
  parImproveMatching m r.edges order tries (pairUp (r.vertices vertices))

/-- `matching.rs:252-264`: the root keeps the matching with the smallest cost. -/
def mpiBest (root : α × List (Nat × Nat)) (others : List (α × List (Nat × Nat))) :
    α × List (Nat × Nat) :=
  others.foldl (fun best o => if o.1 <ᶠ best.1 then o else best) root

/-- `matching.rs:209-281` `mpi_improve_matching`, all ranks together: `l` and `tries` have been
broadcast (`matching.rs:301-336`, `lib.rs:115-124`), `shufs k` are the shuffles of rank `k`. The root
receives from rank 1, 2, … in this order, so the result does not depend on message timing. The
broadcast of the initial matching takes the address of `matching[0][0]` on every rank (line 359), and
every rank but the root does so again when it sends its result (line 244). The matchings travel as flat lists of
vertices (lines 235, 244) and are regrouped on every rank (lines 275-280). The result is the list of
the matchings on the ranks. -/
def mpiImproveMatching (m : Mat α) (shufs : Nat → Nat → List (Nat × Nat) → List (Nat × Nat))
    (size tries : Nat) (l : List (Nat × Nat)) : RM (List (List (Nat × Nat))) := do
  if l.isEmpty then .error .index
  let locals ← (List.range size).mapM fun k => do
    let l' ← improveMatching m (shufs k) tries l
    let cost ← matchingCost m l'
    if k ≠ 0 ∧ l'.isEmpty then .error .index
    else return (cost, l')
  match locals with
  | [] => .error .explicit
  | root :: others =>
    let best := mpiBest root others
    let msg := flattenEdges best.2
    return (List.range size).map fun _ => pairUp msg

/-! ## `christofides.rs` -/

/-- `christofides.rs:81-98` `compute_approx_matching`: the vertices of odd degree. -/
def oddVertices (mst : Graph α) : List Nat :=
  mst.zipIdx.filterMap fun x => if x.1.length % 2 = 1 then some x.2 else none

/-- `DMatrix<(f64, usize)>`: cost and multiplicity of the edges. -/
structure MGraph (α : Type) where
  /-- number of rows and columns -/
  dim : Nat
  /-- entries -/
  cell : Nat → Nat → α × Nat

namespace MGraph

/-- number of edges between two vertices -/
def times (g : MGraph α) (i j : Nat) : Nat := (g.cell i j).2

/-- write an entry -/
def put (g : MGraph α) (i j : Nat) (x : α × Nat) : MGraph α :=
  { g with cell := fun a b => if a = i ∧ b = j then x else g.cell a b }

/-- set the multiplicity of an entry -/
def setTimes (g : MGraph α) (i j k : Nat) : MGraph α := g.put i j ((g.cell i j).1, k)

/-- `multigraph[(i, j)].1 += 1` -/
def inc (g : MGraph α) (i j : Nat) : RM (MGraph α) :=
  if i < g.dim ∧ j < g.dim then .ok (g.setTimes i j (g.times i j + 1)) else .error .index

end MGraph

/-- `x -= 1` on a `usize` after `debug_assert!(x > 0)` (`christofides.rs:154-181`). With debug assertions
(`dbg`) the assertion panics if `x` is 0. Without them overflow is not checked either (the release profile
of `/repo/Cargo.toml` does not ask for it), and 0 wraps around to the largest `usize`. -/
def decr (dbg : Bool) (x : Nat) : RM Nat :=
  if x = 0 then if dbg then .error .assert else .ok (2 ^ 64 - 1) else .ok (x - 1)

/-- `christofides.rs:154-167`: `multigraph[(i, j)].1 -= 1` with the `debug_assert!` before it -/
def MGraph.dec (dbg : Bool) (g : MGraph α) (i j : Nat) : RM (MGraph α) :=
  if i < g.dim ∧ j < g.dim then do
    let x ← decr dbg (g.times i j)
    return g.setTimes i j x
  else .error .index

/-- `christofides.rs:252`: `base_graph.map(|cost| (cost, 0))`. -/
def emptyMulti (m : Mat α) : MGraph α := ⟨m.dim, fun i j => (m.get i j, 0)⟩

/-- `christofides.rs:260-264`: the edges of one vertex are written into its row. -/
def fillRow (g : MGraph α) (i : Nat) (edges : List (Edge α)) : RM (MGraph α) :=
  edges.foldlM (fun g e => if e.dst < g.dim then .ok (g.put i e.dst (e.cost, 1)) else .error .index) g

/-- `christofides.rs:272-276`: the edges of one vertex are written into its column. -/
def fillCol (g : MGraph α) (i : Nat) (edges : List (Edge α)) : RM (MGraph α) :=
  edges.foldlM (fun g e => if e.dst < g.dim then .ok (g.put e.dst i (e.cost, 1)) else .error .index) g

/-- `christofides.rs:257-265` -/
def fillMstSeq (g : MGraph α) (mst : Graph α) : RM (MGraph α) :=
  (List.range (min mst.length g.dim)).foldlM (fun g i => do
    let edges ← idx mst i
    fillRow g i edges) g

/-- `christofides.rs:266-277`; `order` is the order in which the columns are treated. -/
def fillMstPar (order : List Nat) (g : MGraph α) (mst : Graph α) : RM (MGraph α) :=
  order.foldlM (fun g i => do
    let edges ← idx mst i
    fillCol g i edges) g

/-- `christofides.rs:285-288` -/
def fillMatchingSeq (g : MGraph α) (matching : List (Nat × Nat)) : RM (MGraph α) :=
  matching.foldlM (fun g e => do
    let g ← g.inc e.1 e.2
    g.inc e.2 e.1) g

/-- `christofides.rs:241-311` `fill_multigraph_with_mst_and_matching` in mode SEQ (and MPI). -/
def fillSeq (m : Mat α) (mst : Graph α) (matching : List (Nat × Nat)) : RM (MGraph α) := do
  let g ← fillMstSeq (emptyMulti m) mst
  fillMatchingSeq g matching

/-- One closure of `christofides.rs:297-303` in execution: `pc` counts the memory accesses done (read
and write of the entry `(i, j)`, read and write of `(j, i)`), `reg` is the value read last. -/
structure RaceTask where
  /-- the edge -/
  edge : Nat × Nat
  /-- memory accesses done -/
  pc : Nat
  /-- value read last -/
  reg : Nat

/-- Shared memory and closures. -/
structure RaceState (α : Type) where
  /-- the multigraph -/
  g : MGraph α
  /-- the closures -/
  tasks : List RaceTask

/-- One memory access of one closure of `christofides.rs:297-303`. Nothing orders the accesses of
different closures. -/
inductive RaceStep : RaceState α → RaceState α → Prop
  | read1 (s : RaceState α) (k : Nat) (t : RaceTask) : s.tasks[k]? = some t → t.pc = 0 →
      RaceStep s ⟨s.g, s.tasks.set k ⟨t.edge, 1, s.g.times t.edge.1 t.edge.2⟩⟩
  | write1 (s : RaceState α) (k : Nat) (t : RaceTask) : s.tasks[k]? = some t → t.pc = 1 →
      RaceStep s ⟨s.g.setTimes t.edge.1 t.edge.2 (t.reg + 1), s.tasks.set k ⟨t.edge, 2, t.reg⟩⟩
  | read2 (s : RaceState α) (k : Nat) (t : RaceTask) : s.tasks[k]? = some t → t.pc = 2 →
      RaceStep s ⟨s.g, s.tasks.set k ⟨t.edge, 3, s.g.times t.edge.2 t.edge.1⟩⟩
  | write2 (s : RaceState α) (k : Nat) (t : RaceTask) : s.tasks[k]? = some t → t.pc = 3 →
      RaceStep s ⟨s.g.setTimes t.edge.2 t.edge.1 (t.reg + 1), s.tasks.set k ⟨t.edge, 4, t.reg⟩⟩

/-- `christofides.rs:289-305`: `g'` is a possible content of the multigraph after all closures have
finished. (Only meaningful for vertices below `dim`: the pointer arithmetic is unchecked.) -/
def FillMatchingPar (g : MGraph α) (matching : List (Nat × Nat)) (g' : MGraph α) : Prop :=
  ∃ n tasks, Steps RaceStep n ⟨g, matching.map fun e => ⟨e, 0, 0⟩⟩ ⟨g', tasks⟩ ∧
    ∀ t ∈ tasks, t.pc = 4

/-- `christofides.rs:241-311` in mode PAR: `g'` is a possible result. -/
def FillPar (order : List Nat) (m : Mat α) (mst : Graph α) (matching : List (Nat × Nat))
    (g' : MGraph α) : Prop :=
  ∃ g, fillMstPar order (emptyMulti m) mst = .ok g ∧ FillMatchingPar g matching g'

/-- `christofides.rs:145-184`, the loop of `find_cycle`. First explicit argument after `dbg`: fuel. Returns
the cycle, the remaining multigraph and the degrees. -/
def findCycleLoop (dbg : Bool) :
    Nat → MGraph α → List Nat → Nat → List Nat → RM (List Nat × MGraph α × List Nat)
  | 0, _, _, _, _ => .error .fuel
  | fuel + 1, g, deg, vertex, cycle =>
    if vertex < g.dim then
      match (List.range g.dim).find? (fun j => g.times vertex j != 0) with
      | none => .ok (cycle, g, deg)
      | some next => do
        let g ← g.dec dbg vertex next
        let g ← g.dec dbg next vertex
        let d ← decr dbg (← idx deg vertex)
        let deg := deg.set vertex d
        let d ← decr dbg (← idx deg next)
        let deg := deg.set next d
        findCycleLoop dbg fuel g deg next (cycle ++ [next])
    else .error .index

/-- A `Vec<usize>` has at most `isize::MAX` bytes, hence fewer elements than this. -/
def vecLimit : Nat := 2 ^ 60

/-- `christofides.rs:136-186` `find_cycle`. Every round of the loop pushes onto the vector `cycle`: the
fuel is more than a run that returns can use. -/
def findCycle (dbg : Bool) (start : Nat) (g : MGraph α) (deg : List Nat) :
    RM (List Nat × MGraph α × List Nat) :=
  findCycleLoop dbg (vecLimit + deg.sum) g deg start [start]

/-- `christofides.rs:115-118`: position of the first vertex of the walk with unused edges. -/
def findOpen (deg : List Nat) : List Nat → Nat → RM (Option (Nat × Nat))
  | [], _ => .ok none
  | v :: t, k => do
    let d ← idx deg v
    if d ≠ 0 then return some (k, v) else findOpen deg t (k + 1)

/-- `christofides.rs:115-128`. First explicit argument after `dbg`: fuel. -/
def eulerLoop (dbg : Bool) : Nat → MGraph α → List Nat → List Nat → RM (List Nat)
  | 0, _, _, _ => .error .fuel
  | fuel + 1, g, deg, walk => do
    match ← findOpen deg walk 0 with
    | none => return walk
    | some (k, v) =>
      let (cycle, g, deg) ← findCycle dbg v g deg
      eulerLoop dbg fuel g deg (walk.take (k + 1) ++ cycle.drop 1 ++ walk.drop (k + 1))

/-- `christofides.rs:106-109`: column sums. -/
def multiDegrees (g : MGraph α) : List Nat :=
  (List.range g.dim).map fun j => ((List.range g.dim).map fun i => g.times i j).sum

/-- `christofides.rs:102-130` `eulerian_cycle_from_multigraph`. A round that does not make the walk longer
changes nothing and is repeated for ever, and the walk is a vector: the fuel is more than a run that
returns can use. -/
def eulerianCycle (dbg : Bool) (g : MGraph α) : RM (List Nat) :=
  eulerLoop dbg (vecLimit + (multiDegrees g).sum) g (multiDegrees g) [0]

/-- `christofides.rs:206-213`: which entries are first visits. -/
def firstVisits : List Bool → List Nat → RM (List Bool)
  | _, [] => .ok []
  | visited, i :: t => do
    let v ← idx visited i
    if v then do
      let r ← firstVisits visited t
      return false :: r
    else do
      let r ← firstVisits (visited.set i true) t
      return true :: r

/-- `christofides.rs:196-225` `hamiltonian_from_eulerian_cycle`. The `debug_assert!` about the maximum
is implied by the bounds checks; an empty walk panics in both `expect`s. -/
def hamiltonianFromEulerian (dim : Nat) (walk : List Nat) : RM (List Nat) := do
  let flags ← firstVisits (List.replicate dim false) walk
  let kept := (walk.zip flags).filterMap fun x => if x.2 then some x.1 else none
  let f ← unwrapO kept.head?
  return kept ++ [f]

/-- `solvers/mod.rs:12-35` `is_hamiltonian_cycle`: `used` counts the visits; all counts are 1 except
for at most one, which may be 2. -/
def isHamiltonianCycle (path : List Nat) (dim : Nat) : Bool :=
  if path.any (fun u => dim ≤ u) then false
  else
    let used := path.foldl (fun used u => used.modify u (· + 1)) (List.replicate dim 0)
    (used.foldl (fun (st : Bool × Bool) k =>
      -- `st.1`: still true, `st.2`: `seen_vertex_twice`
      if k = 2 then (st.1 && !st.2, true) else (st.1 && (k == 1), st.2)) (true, false)).1

/-- `christofides.rs:61-71`: the part of `christofides_generic` after the multigraph has been built.
`dbg`: debug assertions are enabled. -/
def christofidesTail (dbg : Bool) (m : Mat α) (g : MGraph α) : RM (Solution α) := do
  let walk ← eulerianCycle dbg g
  let ham ← hamiltonianFromEulerian m.dim walk
  let costs ← (ham.zip ham.tail).mapM fun e => m.entry e.1 e.2
  if dbg && !isHamiltonianCycle ham m.dim then .error .assert
  else return (FloatOps.sum costs, ham)

/-- `christofides.rs:35-72` `christofides_generic` in mode SEQ with a given matching computer. -/
def christofidesGeneric (dbg : Bool) (m : Mat α)
    (matcher : Graph α → Mat α → RM (List (Nat × Nat))) : RM (Solution α) := do
  if dbg && !m.isMetric then .error .assert
  else
    let mst ← primSeq m []
    let matching ← matcher mst m
    let g ← fillSeq m mst matching
    christofidesTail dbg m g

/-- `christofides.rs:81-98` `compute_approx_matching` in mode SEQ. -/
def computeApproxMatching (r : MatchRng) (mst : Graph α) (m : Mat α) : RM (List (Nat × Nat)) :=
  approxMatchingSeq m r (oddVertices mst) ((oddVertices mst).length ^ 2)

/-- `christofides.rs:17-19` `christofides` in mode SEQ. -/
def christofidesSeq (dbg : Bool) (m : Mat α) (r : MatchRng) : RM (Solution α) :=
  christofidesGeneric dbg m (computeApproxMatching r)

/-- The scheduling freedom of mode PAR outside the unsynchronised increments. -/
structure ParSched (α : Type) where
  /-- rayon's splits of the minimum search in Prim's algorithm -/
  shape : Nat → List (Nat × Edge α) → RTree (Nat × Edge α)
  /-- the update order in Prim's algorithm -/
  update : Nat → Nat → List Nat
  /-- the order of the chunks of the matching -/
  chunks : Nat → Nat → List Nat
  /-- the order of the columns of the multigraph -/
  columns : Nat → List Nat

/-- everything is done exactly once -/
structure ParSched.Ok (s : ParSched α) : Prop where
  shape : ∀ it l, (s.shape it l).flatten = l
  update : ∀ it n, (s.update it n).Perm (List.range n)
  chunks : ∀ k n, (s.chunks k n).Perm (List.range n)
  columns : ∀ n, (s.columns n).Perm (List.range n)

/-- `christofides.rs:35-72` `christofides_generic` in mode PAR with a given matching computer: `res`
is a possible outcome. A panic before the multigraph is built is an outcome, and so is the outcome
for every possible multigraph. -/
def ChristofidesGenericPar (dbg : Bool) (m : Mat α)
    (matcher : Graph α → Mat α → RM (List (Nat × Nat))) (s : ParSched α) (res : RM (Solution α)) :
    Prop :=
  if dbg && !m.isMetric then res = .error .assert
  else
    match primPar s.shape s.update m [] with
    | .error e => res = .error e
    | .ok mst =>
      match matcher mst m with
      | .error e => res = .error e
      | .ok matching =>
        match fillMstPar (s.columns (min mst.length m.dim)) (emptyMulti m) mst with
        | .error e => res = .error e
        | .ok g0 => ∃ g, FillMatchingPar g0 matching g ∧ res = christofidesTail dbg m g

/-- `christofides.rs:81-98` `compute_approx_matching` in mode PAR. -/
def computeApproxMatchingPar (r : MatchRng) (chunks : Nat → Nat → List Nat) (mst : Graph α)
    (m : Mat α) : RM (List (Nat × Nat)) :=
  approxMatchingPar m r chunks (oddVertices mst) ((oddVertices mst).length ^ 2)

/-- `christofides.rs:17-19` `christofides` in mode PAR: `res` is a possible outcome. -/
def ChristofidesPar (dbg : Bool) (m : Mat α) (r : MatchRng) (s : ParSched α)
    (res : RM (Solution α)) : Prop :=
  ChristofidesGenericPar dbg m (computeApproxMatchingPar r s.chunks) s res

/-- `christofides.rs:81-98` `compute_approx_matching` in mode MPI on the root: `shufs k` are the
shuffles of rank `k`. -/
def computeApproxMatchingMpi (r : MatchRng) (shufs : Nat → Nat → List (Nat × Nat) → List (Nat × Nat))
    (size : Nat) (mst : Graph α) (m : Mat α) : RM (List (Nat × Nat)) := do
  let ls ← mpiImproveMatching m shufs size ((oddVertices mst).length ^ 2)
    (pairUp (r.vertices (oddVertices mst)))
  unwrapO ls.head?

/-- `christofides.rs:17-19` `christofides` in mode MPI on the root (`lib.rs:112-113`). Prim's algorithm
and the multigraph are sequential in this mode (`mst.rs:29-33`, `christofides.rs:246-249`). -/
def christofidesMpi (dbg : Bool) (m : Mat α) (r : MatchRng)
    (shufs : Nat → Nat → List (Nat × Nat) → List (Nat × Nat)) (size : Nat) : RM (Solution α) :=
  christofidesGeneric dbg m (computeApproxMatchingMpi r shufs size)

end Walky
