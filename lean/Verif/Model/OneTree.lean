import Verif.Model.Prim

/-!
# Model: 1-tree lower bound

Source: `/repo/src/one_tree.rs:26-157`.
-/

namespace Walky

open FloatOps

variable {α : Type} [FloatOps α]

/-- One iteration of the loop `one_tree.rs:44-61`: state `(fst_min_edg, snd_min_edg)`. -/
def twoMinStep (special : Nat) (row : Nat → α) (s : Edge α × Edge α) (j : Nat) : Edge α × Edge α :=
  if j = special then s
  else if row j <ᶠ s.1.cost then (⟨j, row j⟩, s.1)
  else if row j <ᶠ s.2.cost then (s.1, ⟨j, row j⟩)
  else s

/-- `one_tree.rs:26-68` `one_tree`. The `debug_assert!` is modelled as a panic (in release builds
the call of `row` would panic for the same inputs). -/
def oneTree (m : Mat α) (special : Nat) : RM (Graph α) :=
  if special < m.dim then do
    let mst ← primSeq m [special]
    let s := (List.range m.dim).foldl (twoMinStep special (m.get special))
      (⟨special, inf⟩, ⟨special, inf⟩)
    let mst ← mst.addUndirectedEdge special s.1.dst s.1.cost
    mst.addUndirectedEdge special s.2.dst s.2.cost
  else .error .assert

/-- the closure `|special_vertex| one_tree(graph, special_vertex).undirected_edge_weight()`
(`one_tree.rs:92,107,127`). -/
def oneTreeWeight (m : Mat α) (special : Nat) : RM α := do
  let g ← oneTree m special
  return g.undirectedEdgeWeight

/-- One comparison of `max_by(|x, y| x.partial_cmp(y).expect(..))` (`one_tree.rs:93-96`,
`108-111`): `NaN` panics; of two equal values the later one is kept (both in `std` and in rayon). -/
def maxPartial (x y : α) : RM α :=
  if isNaN x || isNaN y then .error .unwrap
  else .ok (if y <ᶠ x then x else y)

/-- `Iterator::max_by` of a sequence; `none` if it is empty. -/
def maxByL : List α → RM (Option α)
  | [] => .ok none
  | x :: t => do
    let r ← t.foldlM maxPartial x
    return some r

/-- `one_tree.rs:90-98` `one_tree_lower_bound_seq`. The lazy interleaving of `map` and `max_by` is
not modelled: all weights are computed first (this only affects which of several panics occurs). -/
def oneTreeLbSeq (m : Mat α) : RM α := do
  let ws ← (List.range m.dim).mapM (oneTreeWeight m)
  let r ← maxByL ws
  unwrapO r

/-- combination of two partial results of a reduction with a panicking operation -/
def combineM {β : Type} (f : β → β → RM β) : Option β → Option β → RM (Option β)
  | some a, some b => do
    let r ← f a b
    return some r
  | some a, none => .ok (some a)
  | none, b => .ok b

/-- rayon's `reduce_with` with a panicking operation -/
def RTree.reduceM {β : Type} (f : β → β → RM β) : RTree β → RM (Option β)
  | .empty => .ok none
  | .leaf x => .ok (some x)
  | .node l r => do
    let a ← l.reduceM f
    let b ← r.reduceM f
    combineM f a b

/-- `one_tree.rs:104-113` `one_tree_lower_bound_par`; `shape` is the reduction tree chosen by
rayon. -/
def oneTreeLbPar (shape : List α → RTree α) (m : Mat α) : RM α := do
  let ws ← (List.range m.dim).mapM (oneTreeWeight m)
  let r ← (shape ws).reduceM maxPartial
  unwrapO r

/-- `(rank..dim).step_by(size)` (`one_tree.rs:125-126`). -/
def stepBy (rank size dim : Nat) : List Nat :=
  (List.range dim).filter fun i => decide (rank ≤ i ∧ (i - rank) % size = 0)

/-- `one_tree.rs:125-133`: the value a rank contributes. -/
def oneTreeLocal (m : Mat α) (size rank : Nat) : RM α := do
  let ws ← (stepBy rank size m.dim).mapM (oneTreeWeight m)
  let r ← maxByL ws
  unwrapO r

/-- `SystemOperation::max()` on two doubles. -/
def mpiMax (x y : α) : α := if x <ᶠ y then y else x

/-- `one_tree.rs:120-147` `one_tree_lower_bound_mpi`: the value on the root. A panic on one rank
aborts the job. `shape` is the order and tree in which MPI combines the contributions. (Ranks other
than the root return `f64::INFINITY`.) -/
def oneTreeLbMpi (shape : List α → RTree α) (size : Nat) (m : Mat α) : RM α := do
  let ls ← (List.range size).mapM (oneTreeLocal m size)
  unwrapO ((shape ls).reduce mpiMax)

end Walky
