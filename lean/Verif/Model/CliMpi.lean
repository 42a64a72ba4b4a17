import Verif.Model.Cli
import Verif.Model.Mpi

/-!
# Model: the command line with `--parallelism mpi`

Source: `/repo/src/lib.rs`, built with the feature `mpi`.

All processes of the job are started with the same arguments and the same file. A run is described by
what each rank has printed and how it ended. If an MPI computation panics on one rank, the job is
aborted; this is modelled as a failure of all ranks, which print nothing in this case.

Contract of the MPI binding: `mpi::initialize` returns `None` if MPI has been initialised before, even
after it has been finalised (MPI can be initialised only once in a process). The `Universe` that it
returns finalises MPI when it is dropped.

The warnings on stderr (`mst.rs:31`, `nearest_neighbour.rs:93`) are in `Model/Warnings.lean`.
-/

namespace Walky

open FloatOps

variable {α : Type} [FloatOps α]

/-- `cli.rs` `Commands` with `parallelism = Parallelism::MPI` -/
inductive MpiCommand
  | exact (a : ExactAlgorithm)
  | approx (a : ApproxAlgorithm) (lb : Option LowerBoundAlgorithm)
  | lowerBound (a : LowerBoundAlgorithm)

/-- Everything a job does not determine itself. -/
structure MpiEnv (α : Type) where
  /-- debug assertions -/
  dbg : Bool
  /-- number of processes -/
  size : Nat
  /-- how MPI combines the contributions for each rank in the nearest neighbour algorithm -/
  nnShape : Nat → List (α × Nat) → RTree (α × Nat)
  /-- how MPI combines the contributions in the 1-tree bound -/
  oneTreeShape : List α → RTree α
  /-- the heap of the priority queue on each rank -/
  peek : Nat → Nat → List (Nat × α) → Option (Nat × α)
  /-- random numbers of the root in the matching -/
  rng : MatchRng
  /-- shuffles of each rank in the matching -/
  shufs : Nat → Nat → List (Nat × Nat) → List (Nat × Nat)

/-- the same outcome on all ranks -/
def MpiEnv.all (env : MpiEnv α) (o : Out α) : List (Out α) := List.replicate env.size o

/-- one outcome on the root and another one on all other ranks -/
def MpiEnv.rootAnd (env : MpiEnv α) (root other : Out α) : List (Out α) :=
  (List.range env.size).map fun r => if r = 0 then root else other

/-- `lib.rs:46-81` `exact_run`: `outs` is a possible outcome of a job. (All ranks print the result.
Jobs that do not come to an end have no outcome, see `StaticResult` and `DynamicResult`.) -/
def MpiExactRun (env : MpiEnv α) (m : Mat α) (a : ExactAlgorithm) (outs : List (Out α)) : Prop :=
  let print := Out.print fun r : Solution α => [Line.bestCost r.1, Line.bestPermutation r.2]
  match a with
  | .v0 => ∃ r, StaticResult m 3 (env.size - 1) r ∧ outs = env.all (print r)
  | .v1 => ∃ r, DynamicResult m (env.size - 1) r ∧ outs = env.all (print r)
  | _ => outs = env.all ⟨[], .error .explicit⟩

/-- `lib.rs:202-219`: the bounds that a rank computes on its own. (`mst.rs:29-33`: the mode MPI of
Prim's algorithm is the sequential one.) -/
def mpiMst (env : MpiEnv α) (m : Mat α) (rank : Nat) (queue : Bool) : Out α :=
  Out.print (fun t : Graph α => [Line.mstBound t.undirectedEdgeWeight])
    (if queue then primQueue (env.peek rank) m [] else primSeq m [])

/-- `lib.rs:165-224` `lower_bound_run` of all ranks, when MPI has not been initialised. Only the root
prints the 1-tree bound (`lib.rs:191-194`). -/
def mpiLowerBound (env : MpiEnv α) (m : Mat α) : LowerBoundAlgorithm → List (Out α)
  | .oneTree =>
    match oneTreeLbMpi env.oneTreeShape env.size m with
    | .ok w => env.rootAnd ⟨[Line.oneTreeBound w], .ok ()⟩ ⟨[], .ok ()⟩
    | .error e => env.all ⟨[], .error e⟩
  | .mst => (List.range env.size).map fun r => mpiMst env m r false
  | .mstQueue => (List.range env.size).map fun r => mpiMst env m r true

/-- `lib.rs:158-161`, `165-224`: the optional lower bound on one rank after an approximation. MPI has
been initialised, so that `lib.rs:186` fails. -/
def mpiBoundAfter (env : MpiEnv α) (m : Mat α) (rank : Nat) : Option LowerBoundAlgorithm → Out α
  | none => ⟨[], .ok ()⟩
  | some .oneTree => ⟨[], .error .unwrap⟩
  | some .mst => mpiMst env m rank false
  | some .mstQueue => mpiMst env m rank true

/-- `lib.rs:84-162` `approx_run` of all ranks. In Christofides' algorithm all ranks but the root only
help with the matching and end without output (`lib.rs:114-126`). -/
def mpiApprox (env : MpiEnv α) (m : Mat α) (lb : Option LowerBoundAlgorithm) :
    ApproxAlgorithm → List (Out α)
  | .christofides =>
    match christofidesMpi env.dbg m env.rng env.shufs env.size with
    | .ok r => env.rootAnd
        (Out.andThen ⟨[Line.christofidesWeight r.1], .ok ()⟩ (mpiBoundAfter env m 0 lb)) ⟨[], .ok ()⟩
    | .error e => env.all ⟨[], .error e⟩
  | .nearestNeighbour =>
    match nnMpi env.nnShape env.size m with
    | .ok rs => rs.zipIdx.map fun x =>
        Out.andThen ⟨[Line.nnWeight x.1.1, Line.nnTour x.1.2], .ok ()⟩ (mpiBoundAfter env m x.2 lb)
    | .error e => env.all ⟨[], .error e⟩

/-- `lib.rs:227-246` `run`: `outs` is a possible outcome of a job; entry `r` is the outcome of rank
`r`. -/
def MpiRuns (env : MpiEnv α) (g : Graph α) (c : MpiCommand) (outs : List (Out α)) : Prop :=
  match (do naFromGraph (← parseChecked g)) with
  | .error e => outs = env.all ⟨[], .error e⟩
  | .ok m =>
    match c with
    | .exact a => MpiExactRun env m a outs
    | .approx a lb => outs = mpiApprox env m lb a
    | .lowerBound a => outs = mpiLowerBound env m a

end Walky
