import Verif.Model.Prim

/-!
# Model: the recursive exact solvers v2 – v6 and the MPI recursion

Source: `/repo/src/solvers/exact.rs:76-532,967-1046`.

The six recursive functions of the source are textually identical except for the test that decides
whether the branch of the extended prefix is explored. The model has one recursion `dfs` with that
test as a parameter, and one test per solver.
-/

namespace Walky

open FloatOps

variable {α : Type} [FloatOps α]

/-- Decides whether to recurse: arguments are the auxiliary state (cache of v6), the extended
prefix, `current_cost` after adding the new edge, and `result.0`. -/
abbrev PruneTest (σ α : Type) := σ → List Nat → α → α → RM (Bool × σ)

/-- `exact.rs:90-144` `_second_improved_solver_rec`, `166-217` `_third_…`, `250-309` `_fourth_…`,
`363-422` `_fifth_…`, `454-532` `_sixth_…`, `967-1046` `_mpi_improved_solver_rec`.

`current_prefix` is pushed and popped around each recursive call, which is modelled by passing the
extended prefix. `current_cost` is changed by `+=` and `-=` and carried through the loop.
The mutable `result` and the auxiliary state are threaded through. The first argument is fuel for the
recursion depth. -/
def dfs {σ : Type} (m : Mat α) (test : PruneTest σ α) :
    Nat → List Nat → α → Solution α × σ → RM (Solution α × σ)
  | 0, _, _, _ => .error .fuel
  | fuel + 1, pre, cost, s =>
    if pre.length = m.dim then do
      let l ← unwrapO pre.getLast?
      let f ← unwrapO pre.head?
      let w ← m.entry l f
      let cost := cost +ᶠ w
      if cost <ᶠ s.1.1 then return ((cost, pre), s.2) else return s
    else do
      let r ← (List.range m.dim).foldlM (fun (st : α × Solution α × σ) i => do
        let (cur, s) := st
        if pre.contains i then return (cur, s)
        let pre' := pre ++ [i]
        if pre'.length = 1 then do
          let s ← dfs m test fuel pre' cur s
          return (cur, s)
        else do
          let a ← idx pre' (pre'.length - 2)
          let b ← idx pre' (pre'.length - 2 + 1)
          let w ← m.entry a b
          let cur := cur +ᶠ w
          let (go, aux) ← test s.2 pre' cur s.1.1
          let s ← if go then dfs m test fuel pre' cur (s.1, aux) else pure (s.1, aux)
          return (cur -ᶠ w, s)) (cost, s)
      return r.2

/-- Common entry point (`exact.rs:76-85` and its siblings): empty prefix, cost `0.0`,
result `(INFINITY, [])`. -/
def solveDfs {σ : Type} (m : Mat α) (test : PruneTest σ α) (aux : σ) : RM (Solution α) := do
  let r ← dfs m test (m.dim + 1) [] zero ((inf, []), aux)
  return r.1

/-- v2 never prunes. -/
def test2 : PruneTest Unit α := fun _ _ _ _ => .ok (true, ())

/-- `exact.rs:209`: `current_cost <= result.0`. -/
def test3 : PruneTest Unit α := fun _ _ cur best => .ok (cur ≤ᶠ best, ())

/-- `exact.rs:325-340`: cheapest edge from `i` to a later vertex outside `subtour`. -/
def shortestLaterEdge (m : Mat α) (subtour : List Nat) (i : Nat) : α :=
  (List.range' (i + 1) (m.dim - (i + 1))).foldl (fun best j =>
    if subtour.contains j then best
    else if m.get i j <ᶠ best then m.get i j else best) inf

/-- `exact.rs:315-347` `compute_nn_of_remaining_vertices` (called with `n = dim()`, so all indices
are in bounds). -/
def nnOfRemaining (m : Mat α) (subtour : List Nat) : α :=
  (List.range m.dim).foldl (fun res i =>
    if subtour.contains i then res
    else
      let e := shortestLaterEdge m subtour i
      if !(eq e inf) then res +ᶠ e else res) zero

/-- `exact.rs:300-301`. -/
def test4 (m : Mat α) : PruneTest Unit α := fun _ pre cur best =>
  .ok (cur +ᶠ nnOfRemaining m pre ≤ᶠ best, ())

/-- `exact.rs:411-413`: the bound of v5, v6 and the MPI solvers. -/
def mstBound (m : Mat α) (pre : List Nat) : RM α := do
  let g ← primSeq m pre
  return g.directedEdgeWeight

/-- `exact.rs:411-414`. -/
def test5 (m : Mat α) : PruneTest Unit α := fun _ pre cur best => do
  let lb ← mstBound m pre
  return (cur +ᶠ lb ≤ᶠ best, ())

/-- `FxHashMap<u64, f64>` as an association list. -/
abbrev Cache (α : Type) := List (Nat × α)

/-- `exact.rs:509-518`: the argument of `or_insert` is evaluated eagerly, but only inserted if the
key is vacant; the entry's value is the bound. `hash` is FxHash of the prefix. -/
def test6 (m : Mat α) (hash : List Nat → Nat) : PruneTest (Cache α) α := fun cache pre cur best => do
  let lb ← mstBound m pre
  match cache.lookup (hash pre) with
  | some v => return (cur +ᶠ v ≤ᶠ best, cache)
  | none => return (cur +ᶠ lb ≤ᶠ best, (hash pre, lb) :: cache)

/-- `exact.rs:1022-1032`. -/
def testMpi (m : Mat α) (globalBest : α) : PruneTest Unit α := fun _ pre cur best => do
  let lb ← mstBound m pre
  let bestKnown := if globalBest <ᶠ best then globalBest else best
  return (cur +ᶠ lb ≤ᶠ bestKnown, ())

/-- `exact.rs:76-85` `second_improved_solver` (v2). -/
def secondImprovedSolver (m : Mat α) : RM (Solution α) := solveDfs m test2 ()
/-- `exact.rs:148-157` `third_improved_solver` (v3). -/
def thirdImprovedSolver (m : Mat α) : RM (Solution α) := solveDfs m test3 ()
/-- `exact.rs:235-244` `fourth_improved_solver` (v4). -/
def fourthImprovedSolver (m : Mat α) : RM (Solution α) := solveDfs m (test4 m) ()
/-- `exact.rs:352-358` `fifth_improved_solver` (v5). -/
def fifthImprovedSolver (m : Mat α) : RM (Solution α) := solveDfs m (test5 m) ()
/-- `exact.rs:426-439` `sixth_improved_solver` (v6). -/
def sixthImprovedSolver (m : Mat α) (hash : List Nat → Nat) : RM (Solution α) :=
  solveDfs m (test6 m hash) []

end Walky
