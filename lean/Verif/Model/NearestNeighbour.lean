import Verif.Model.Prim

/-!
# Model: nearest neighbour heuristic

Source: `/repo/src/solvers/approximate/nearest_neighbour.rs:26-185`.
-/

namespace Walky

open FloatOps

variable {α : Type} [FloatOps α]

/-- The loop variables of `single_nearest_neighbour` (`nearest_neighbour.rs:29-33`). -/
structure NNState (α : Type) where
  /-- `path` -/
  path : List Nat
  /-- `visited` -/
  visited : List Bool
  /-- `current_node` -/
  current : Nat
  /-- `distance` -/
  distance : α

/-- One iteration of the inner loop `nearest_neighbour.rs:42-47`; state
`(nearest_neighbour, min_distance)`. -/
def nnScanStep (m : Mat α) (visited : List Bool) (current : Nat) (s : Option Nat × α) (node : Nat) :
    RM (Option Nat × α) := do
  let v ← idx visited node
  if v then return s
  let d ← m.entry current node
  if d <ᶠ s.2 then return (some node, d) else return s

/-- The loop `nearest_neighbour.rs:38-58`. -/
def nnLoop (m : Mat α) : Nat → NNState α → RM (NNState α)
  | fuel, s =>
    if s.path.length < m.dim then
      match fuel with
      | 0 => .error .fuel
      | fuel + 1 => do
        let (nearest, d) ← (List.range m.dim).foldlM (nnScanStep m s.visited s.current) (none, inf)
        match nearest with
        | some x =>
          if x < s.visited.length then
            nnLoop m fuel { path := s.path ++ [x], visited := s.visited.set x true, current := x,
                            distance := s.distance +ᶠ d }
          else .error .index
        | none => .error .explicit
    else .ok s

/-- `nearest_neighbour.rs:26-62` `single_nearest_neighbour`. -/
def singleNN (m : Mat α) (index : Nat) : RM (Solution α) :=
  if index < m.dim then do
    let s ← nnLoop m m.dim
      { path := [index], visited := (List.replicate m.dim false).set index true, current := index,
        distance := zero }
    let d ← m.entry s.current index
    return (s.distance +ᶠ d, s.path)
  else .error .assert

/-- comparison of `min_by_key(|&(distance, _)| OrderedFloat(distance))`. -/
def solLt (a b : Solution α) : Bool := olt a.1 b.1

/-- `nearest_neighbour.rs:65-71` `n_random_numbers(0, dim, n)`; `xs` is the outcome of the shuffle of
`0..dim`. -/
def nRandomNumbers (xs : List Nat) (n : Nat) : List Nat := xs.take n

/-- `nearest_neighbour.rs:77-88` `n_nearest_neighbour` in sequential mode. -/
def nNNSeq (xs : List Nat) (m : Mat α) (n : Nat) : RM (Solution α) :=
  if n = 0 then .error .assert
  else if m.dim < n then .error .assert
  else do
    let sols ← (nRandomNumbers xs n).mapM (singleNN m)
    unwrapO (minByFirst solLt sols)

/-- `nearest_neighbour.rs:77-82,89-93` `n_nearest_neighbour` with rayon. -/
def nNNPar (shape : List (Solution α) → RTree (Solution α)) (xs : List Nat) (m : Mat α) (n : Nat) :
    RM (Solution α) :=
  if n = 0 then .error .assert
  else if m.dim < n then .error .assert
  else do
    let sols ← (nRandomNumbers xs n).mapM (singleNN m)
    unwrapO ((shape sols).minBy solLt)

/-- `nearest_neighbour.rs:101-103` `nearest_neighbour`, sequential. -/
def nearestNeighbourSeq (xs : List Nat) (m : Mat α) : RM (Solution α) := nNNSeq xs m m.dim

/-- `nearest_neighbour.rs:101-103` `nearest_neighbour`, rayon. -/
def nearestNeighbourPar (shape : List (Solution α) → RTree (Solution α)) (xs : List Nat)
    (m : Mat α) : RM (Solution α) := nNNPar shape xs m m.dim

/-- `nearest_neighbour.rs:137-145`: the chunk `start_node..end_node` of a rank. (`i32` arithmetic as
`Nat`, see `MachineInt.lean`.) -/
def nnChunk (n size rank : Nat) : List Nat :=
  let cs := n / size
  let start := cs * rank
  let stop := if rank = size - 1 ∧ n % size ≠ 0 then n else start + cs
  List.range' start (stop - start)

/-- `nearest_neighbour.rs:148-151`: the best local solution. -/
def nnLocal (m : Mat α) (size rank : Nat) : RM (Solution α) := do
  let sols ← (nnChunk m.dim size rank).mapM (singleNN m)
  unwrapO (minByFirst solLt sols)

/-- The reduction operation `nearest_neighbour.rs:161-176` on `MPICostRank`: input `x`,
accumulator `y`. -/
def costRankOp (x y : α × Nat) : α × Nat :=
  let y := if x.1 <ᶠ y.1 then x else y
  if eq x.1 y.1 ∧ x.2 < y.2 then x else y

/-- `nearest_neighbour.rs:128-185` `nearest_neighbour_mpi`: the results of all ranks. A panic on
one rank aborts the job. `shape r` is the order and tree in which the all-reduce combines the
contributions for rank `r`. The final broadcast uses the winner as root; it only works if all ranks
name the same root (otherwise modelled as a failure). All path buffers have the same length. -/
def nnMpi (shape : Nat → List (α × Nat) → RTree (α × Nat)) (size : Nat) (m : Mat α) :
    RM (List (Solution α)) := do
  let ls ← (List.range size).mapM (nnLocal m size)
  let contrib := (ls.map Prod.fst).zip (List.range size)
  let rs ← (List.range size).mapM fun r => unwrapO ((shape r contrib).reduce costRankOp)
  match rs with
  | [] => .ok []
  | r0 :: _ =>
    if rs.all (fun r => r.2 = r0.2) then do
      let win ← idx ls r0.2
      return rs.map fun r => (r.1, win.2)
    else .error .explicit

end Walky
